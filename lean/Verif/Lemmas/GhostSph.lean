import Verif.Lemmas.GhostMain
/-! The searches of `traversal_sph` as tasks of the protocol. -/
namespace FleCSPH.Ghosts

variable {τ : Type} {G : Key → Option GCell} {cells : Finset Key} {n nch fuel : Nat} {accept : τ → Key → Bool}

/-- The searches as tasks. -/
def sphTasks (n : Nat) (accept : τ → Key → Bool) (O : Nat → Key → Prop) (hT : IsTree nch G cells) (hf : ∀ k ∈ cells, k.length + 2 ≤ fuel) : Tasks (sph n nch accept fuel) G O where
  Need a k := Open (accept a) k ∧ accept a k = true
  Done _ a next out := next = [] ∧ ∃ es, out = [(a, es)] ∧ Reached G (accept a) es
  Ok _ _ _ := True
  cost _ := 1
  mono := fun _ _ _ _ _ _ => trivial
  dec := by
    rintro p a next out ⟨rfl, _⟩
    simp
  step := by
    intro p hp t hv a _
    obtain ⟨r, h1, h2⟩ := explore_spec (accept := accept a) hT hv.good hf
    have hs : (sph n nch accept fuel).step p t a = (explore nch t (accept a) fuel [[]] []).map fun
      | .missing ms => .missing ms
      | .found es => .done [] [(a, es)] := rfl
    rw [hs, h1]
    cases r with
    | missing ms =>
      exact ⟨_, rfl, h2.1, h2.2.1, fun k hk => ⟨⟨(h2.2.2 k hk).1, (h2.2.2 k hk).2.1⟩, (h2.2.2 k hk).2.2⟩⟩
    | found es =>
      refine ⟨_, rfl, ⟨rfl, es, rfl, h2.1⟩, by simp, ?_⟩
      rintro k c hc hem ⟨ho, ha⟩
      rw [h2.2 k c hc ho ha] at hem
      cases hem

theorem sph_hist {ts tasks : List τ} {rs : List (τ × List Key)} (h : Hist (fun a next out => next = [] ∧ ∃ es, out = [(a, es)] ∧ Reached G (accept a) es) ts tasks rs) :
    (tasks ++ rs.map Prod.fst).Perm ts ∧ ∀ r ∈ rs, Reached G (accept r.1) r.2 := by
  induction h with
  | start => simp
  | @step l1 a l2 rs next out h hd ih =>
    obtain ⟨rfl, es, rfl, hr⟩ := hd
    constructor
    · refine List.Perm.trans ?_ ih.1
      rw [List.map_append, List.append_nil]
      simp only [List.map_cons, List.map_nil, List.append_assoc, List.cons_append]
      rw [List.perm_append_left_iff]
      rw [← List.append_assoc]
      exact List.perm_append_singleton a _
    · intro r hm
      rcases List.mem_append.1 hm with h | h
      · exact ih.2 r h
      · rw [List.mem_singleton] at h
        subst h
        exact hr

end FleCSPH.Ghosts
