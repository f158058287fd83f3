import Verif.Lemmas.PathTree
import Verif.Lemmas.TyOk
import Verif.Lemmas.Cofm2
import Verif.Lemmas.ShareRun
import Verif.Model.Startup
/-! The table of one process after `build_tree`, in terms of paths. -/
namespace FleCSPH.Startup
open FleCSPH.Spec FleCSPH.BuildTree FleCSPH.Tree FleCSPH.HCell FleCSPH.Ghosts

variable {D dim : Nat}

theorem code_eq (dim : Nat) : ∀ k : List Nat, ShareTable.code dim k = number dim k
  | [] => rfl
  | j :: k => by rw [ShareTable.code, number, code_eq dim k]

/-- What the table of a process with particles `ks` among `X` holds. -/
structure RankTab (D dim : Nat) (X : Nat → Prop) (ks : List Nat) (t : Tbl) (cofm : List CofmCall) : Prop where
  num : ∀ c, (t c).isSome → ∃ k, Digits dim k ∧ c = number dim k
  kind : ∀ k cell, Digits dim k → t (number dim k) = some cell →
    (InnerP D dim X k ∧ cell.entityIdx = -1) ∨ ∃ (j x : Nat), ks[j]? = some x ∧ LeafP D dim X x k ∧ cell.entityIdx = j ∧ cell.nodeIdx = -1
  own : ∀ k cell, Digits dim k → t (number dim k) = some cell → ∃ x ∈ ks, k <:+ path dim D x
  inner : ∀ k x, InnerP D dim X k → x ∈ ks → k <:+ path dim D x → (t (number dim k)).isSome
  leaf : ∀ k x, LeafP D dim X x k → x ∈ ks → (t (number dim k)).isSome
  node : ∀ k cell, Digits dim k → t (number dim k) = some cell → (cell.nodeIdx ≠ -1 ↔ InnerP D dim X k ∧ ∀ y, X y → k <:+ path dim D y → y ∈ ks)
  child : ∀ k cell b, t (number dim k) = some cell → b < 2 ^ dim → (getChild cell b = true ↔ (t (number dim (b :: k))).isSome = true)
  log : LogOk dim t cofm
  ty : TyOk dim t

theorem rankTab {E : Env} {X : Nat → Prop} (hE : EnvOk E) (hK : KeysOk E) (hA : Around E X) (hXf : ∀ y, X y → FullKey E.D E.dim y) (hne : E.ents ≠ []) :
    ∃ s, buildTree E = some s ∧ RankTab E.D E.dim X E.ents s.tbl s.cofm := by
  have hdim := hE.hdim
  obtain ⟨s, hs, hcan, hlog, hfin⟩ := build_fin E hE hK hne
  have hKn : ∀ y, Known E y → FullKey E.D E.dim y := fun y hy => hXf y (known_sub hA y hy)
  have hleaf : ∀ {x p}, x ∈ E.ents → LeafAt E.D E.dim (Known E) x p → ∀ {k}, Digits E.dim k → number E.dim k = A E.dim p x → LeafP E.D E.dim X x k := by
    intro x p hx hp k hk he
    rw [← leaf_path hdim hXf hk (hA.own x hx), he]
    exact leafAt_leafCell hdim hXf (hA.own x hx) ((leafAt_known hK hA hx).mp hp)
  have hown : ∀ c cell, s.tbl c = some cell → ∃ x ∈ E.ents, H E.D E.dim c x := by
    intro c cell hc
    rcases hcan.some_ c cell hc with ⟨hN, -⟩ | ⟨j, y, p, hj, hl, rfl, -, -⟩
    · rcases hN with h1 | ⟨a, b, ha, hb, hab, p, hp, h1, h2⟩
      · obtain ⟨x, hx⟩ := List.exists_mem_of_ne_nil _ hne
        exact ⟨x, hx, E.D, Nat.le_refl _, by rw [h1]; exact hK.full x hx⟩
      · have between : E.iam0 = false → E.iamlast = false → A E.dim p E.lobound = c → A E.dim p E.hibound = c → ∃ x ∈ E.ents, H E.D E.dim c x := by
          intro i0 il e1 e2
          obtain ⟨x, hx⟩ := List.exists_mem_of_ne_nil _ hne
          refine ⟨x, hx, p, hp, ?_⟩
          have g1 : A E.dim p E.lobound ≤ A E.dim p x := Nat.div_le_div_right (Nat.le_of_lt (hK.lo i0 x hx))
          have g2 : A E.dim p x ≤ A E.dim p E.hibound := Nat.div_le_div_right (Nat.le_of_lt (hK.hi il x hx))
          omega
        rcases ha with ha | ⟨i0, rfl⟩ | ⟨il, rfl⟩
        · exact ⟨a, ha, p, hp, h1⟩
        · rcases hb with hb | ⟨-, rfl⟩ | ⟨il, rfl⟩
          · exact ⟨b, hb, p, hp, h2⟩
          · exact absurd rfl hab
          · exact between i0 il h1 h2
        · rcases hb with hb | ⟨i0, rfl⟩ | ⟨-, rfl⟩
          · exact ⟨b, hb, p, hp, h2⟩
          · exact between i0 il h2 h1
          · exact absurd rfl hab
    · exact ⟨y, List.mem_of_getElem? hj, p, by have := hl.1; omega, rfl⟩
  refine ⟨s, hs, ?_⟩
  constructor
  · intro c hc
    obtain ⟨cell, hc⟩ := Option.isSome_iff_exists.mp hc
    obtain ⟨x, hx, p, hp, he⟩ := hown c cell hc
    refine ⟨(path E.dim E.D x).drop p, digits_suffix (path_digits _ _) (List.drop_suffix _ _), ?_⟩
    rw [number_drop (path_digits _ _) p (by rw [path_length]; exact hp), number_path _ _ (hK.full x hx), ← he]; rfl
  · intro k cell hk hc
    rcases hcan.some_ _ _ hc with ⟨h1, h2⟩ | ⟨j, y, p, hj, hl, he, h2, h3⟩
    · left
      refine ⟨?_, h2⟩
      rw [← inner_path hdim hXf hk, inner_iff hdim hXf]
      exact node_mono (known_sub hA) h1
    · exact Or.inr ⟨j, y, hj, hleaf (List.mem_of_getElem? hj) hl hk he, h2, h3⟩
  · intro k cell hk hc
    obtain ⟨x, hx, h⟩ := hown _ _ hc
    exact ⟨x, hx, (suffix_path hdim hk (hK.full x hx)).mpr h⟩
  · intro k x h hx hs
    have hk := digits_suffix (path_digits _ _) hs
    obtain ⟨cell, hc, -⟩ := hcan.node _ (node_known hE hK hA hXf hx ((suffix_path hdim hk (hK.full x hx)).mp hs)
      ((inner_iff hdim hXf _).mp ((inner_path hdim hXf hk).mpr h)))
    rw [hc]; rfl
  · intro k x h hx
    have hk := digits_suffix (path_digits _ _) h.2.1
    obtain ⟨j, hj⟩ := List.mem_iff_getElem?.mp hx
    obtain ⟨p, hp⟩ := leafAt_exists (dim := E.dim) hE.hD (Known E) x
    have h1 := leafAt_leafCell hdim hXf (hA.own x hx) ((leafAt_known hK hA hx).mp hp)
    have h2 := leafCell_unique h1 ((leaf_path hdim hXf hk (hA.own x hx)).mpr h)
    obtain ⟨cell, hc, -⟩ := hcan.leaf j x p hj hp
    rw [h2] at hc
    rw [hc]; rfl
  · intro k cell hk hc
    rw [hfin _ _ hc, fin_iff hE hK hA hXf hne, ← inner_iff hdim hXf, inner_path hdim hXf hk]
    refine and_congr_right fun _ => forall_congr' fun y => forall_congr' fun hy => ?_
    rw [suffix_path hdim hk (hXf y hy)]; rfl
  · intro k cell b hc hb
    exact hcan.child _ _ _ hc hb
  · exact hlog
  · exact build_ty hs

end FleCSPH.Startup
