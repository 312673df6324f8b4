import Verif.Spec.Rst
import Verif.Lemmas.Py
import Mathlib.Data.List.Rotate

namespace SyMPC

variable {E R : Type} [CommRing R] {I : RingOps E}

theorem rotate_range (n : Nat) (s : Nat → E) (p : Nat) :
    ((List.range n).map fun k => s ((p + k) % n)) = ((List.range n).map s).rotate p := by
  apply List.ext_getElem
  · simp
  · intro i h1 h2
    simp only [List.getElem_map, List.getElem_range, List.getElem_rotate, List.length_map, List.length_range]
    rw [Nat.add_comm]

theorem held_snoc (n : Nat) (s : Nat → E) (r : Nat) (hn : 0 < n) :
    held n s r ++ [s ((r + (n - 1)) % n)] = ((List.range n).map s).rotate r := by
  obtain ⟨m, rfl⟩ : ∃ m, n = m + 1 := ⟨n - 1, by omega⟩
  rw [← rotate_range, List.range_succ]
  simp [held]

theorem held_cons (n : Nat) (s : Nat → E) (r : Nat) (hr : r < n) :
    s r :: held n s ((r + 1) % n) = ((List.range n).map s).rotate r := by
  obtain ⟨m, rfl⟩ : ∃ m, n = m + 1 := ⟨n - 1, by omega⟩
  rw [← rotate_range, List.range_succ_eq_map]
  simp only [held, List.map_cons, List.map_map, Nat.add_sub_cancel, Nat.add_zero, Nat.mod_eq_of_lt hr, List.cons.injEq,
    true_and]
  apply List.map_congr_left
  intro k _
  simp only [Function.comp, Nat.succ_eq_add_one, Nat.mod_add_mod]
  congr 2; omega

theorem held_length (n : Nat) (s : Nat → E) (r : Nat) : (held n s r).length = n - 1 := by simp [held]

/-- Opening at one rank gives the total. -/
theorem sum_rotate (S : RingSem I R) (n : Nat) (s : Nat → E) (hv : ∀ i < n, S.Valid (s i)) (r : Nat) (hr : r < n) :
    ∃ v, I.sum (((List.range n).map s).rotate r) = .ok v ∧ S.Valid v ∧ S.den v = total S n s := by
  have hne : ((List.range n).map s).rotate r ≠ [] := by simp; omega
  obtain ⟨v, h1, h2, h3⟩ := S.sum _ hne (by
    intro a ha
    rw [List.mem_rotate] at ha
    obtain ⟨i, hi, rfl⟩ := List.mem_map.mp ha
    exact hv i (List.mem_range.mp hi))
  refine ⟨v, h1, h2, ?_⟩
  rw [h3]
  have := ((List.rotate_perm ((List.range n).map s) r).map S.den).sum_eq
  rw [this, List.map_map]; rfl

theorem openLoop_ok [DecidableEq E] (I : RingOps E) (ps : List (RST E)) (v : E) (rs : List Nat)
    (h : ∀ r ∈ rs, RST.openAt I ps r = .ok v) (o : Option E) (ho : o = none ∨ o = some v) (hne : rs ≠ [] ∨ o = some v) :
    RST.openLoop I ps rs o = .ok (some v) := by
  induction rs generalizing o with
  | nil =>
    rcases hne with h | h
    · exact absurd rfl h
    · rw [h]; rfl
  | cons r rs ih =>
    rw [RST.openLoop, h r (by simp)]
    rcases ho with rfl | rfl
    · exact ih (fun r hr => h r (by simp [hr])) _ (.inr rfl) (.inr rfl)
    · simp only [ok_bind, ne_eq, not_true_eq_false, if_false]
      exact ih (fun r hr => h r (by simp [hr])) _ (.inr rfl) (.inr rfl)

/-- If the loop accepts, every opening gave the accepted value. -/
theorem openLoop_inv [DecidableEq E] (I : RingOps E) (ps : List (RST E)) (v : E) (rs : List Nat) (o : Option E)
    (h : RST.openLoop I ps rs o = .ok (some v)) :
    (∀ r ∈ rs, RST.openAt I ps r = .ok v) ∧ (o = none ∨ o = some v) := by
  induction rs generalizing o with
  | nil =>
    rw [RST.openLoop] at h; cases h; simp
  | cons r rs ih =>
    rw [RST.openLoop] at h
    cases ht : RST.openAt I ps r with
    | error e => rw [ht] at h; cases h
    | ok t =>
      rw [ht] at h
      simp only [ok_bind] at h
      cases o with
      | none =>
        obtain ⟨h1, h2⟩ := ih _ h
        simp at h2
        subst h2
        refine ⟨?_, .inl rfl⟩
        intro q hq
        rcases List.mem_cons.mp hq with rfl | hq
        · exact ht
        · exact h1 q hq
      | some w =>
        simp only at h
        split at h
        · cases h
        · rename_i hw
          obtain ⟨h1, h2⟩ := ih _ h
          simp at h2 hw
          subst h2
          refine ⟨?_, .inr rfl⟩
          intro q hq
          rcases List.mem_cons.mp hq with rfl | hq
          · rw [ht, hw]
          · exact h1 q hq

theorem openLoop_none [DecidableEq E] (I : RingOps E) (ps : List (RST E)) (rs : List Nat) (o : Option E)
    (h : RST.openLoop I ps rs o = .ok none) : rs = [] := by
  induction rs generalizing o with
  | nil => rfl
  | cons r rs ih =>
    exfalso
    rw [RST.openLoop] at h
    cases ht : RST.openAt I ps r with
    | error e => rw [ht] at h; cases h
    | ok t =>
      rw [ht] at h
      simp only [ok_bind] at h
      cases o with
      | none =>
        have := ih _ h
        subst this; cases h
      | some w =>
        simp only at h
        split at h
        · cases h
        · have := ih _ h
          subst this; cases h

theorem reconstructMalicious_inv [DecidableEq E] (I : RingOps E) (ps : List (RST E)) (v : E)
    (h : RST.reconstructMalicious I ps = .ok v) : ∀ r < ps.length, RST.openAt I ps r = .ok v := by
  unfold RST.reconstructMalicious at h
  cases ho : RST.openLoop I ps (List.range ps.length) none with
  | error e => rw [ho] at h; cases h
  | ok o =>
    rw [ho] at h
    cases o with
    | none => cases h
    | some w =>
      cases h
      intro r hr
      exact (openLoop_inv I ps v _ _ ho).1 r (List.mem_range.mpr hr)

/-- the parties' tensors of a sharing -/
def spread (n : Nat) (s : Nat → E) (tag : Nat → Option Nat) (c : Config) (ring : Nat) : List (RST E) :=
  (List.range n).map fun r => RST.new (held n s r) (tag r) c ring

theorem pyGet_spread {n : Nat} {s : Nat → E} {tag : Nat → Option Nat} {c : Config} {ring r : Nat} (hr : r < n) :
    pyGet (spread n s tag c ring) r = .ok (RST.new (held n s r) (tag r) c ring) := by
  rw [pyGet_ok (by simpa [spread] using hr)]
  simp [spread]

theorem openAt_spread (I : RingOps E) (n : Nat) (hn : 2 ≤ n) (s : Nat → E) (tag : Nat → Option Nat) (c : Config)
    (ring r : Nat) (hr : r < n) :
    RST.openAt I (spread n s tag c ring) r = I.sum (((List.range n).map s).rotate r) := by
  have hlen : (spread n s tag c ring).length = n := by simp [spread]
  have hm : (r + 1) % n < n := Nat.mod_lt _ (by omega)
  have h0 : pyGet (held n s r) 0 = .ok (s r) := by
    rw [pyGet_ok (by rw [held_length]; omega)]
    simp [held, Nat.mod_eq_of_lt hr]
  unfold RST.openAt
  rw [pyGet_spread hr, ok_bind, hlen, pyGet_spread hm]
  simp only [RST.new, h0, ok_bind, held_cons n s r hr]

theorem reconstruct_spread [DecidableEq E] (S : RingSem I R) (n : Nat) (hn : 2 ≤ n) (s : Nat → E)
    (hv : ∀ i < n, S.Valid (s i)) (tag : Nat → Option Nat) (c : Config) (ring : Nat) (sec : Security) :
    ∃ v, RST.reconstruct I (spread n s tag c ring) sec = .ok v ∧ S.Valid v ∧ S.den v = total S n s := by
  obtain ⟨v, h1, h2, h3⟩ := sum_rotate S n s hv 0 (by omega)
  refine ⟨v, ?_, h2, h3⟩
  have hlen : (spread n s tag c ring).length = n := by simp [spread]
  have hne : spread n s tag c ring ≠ [] := by intro h; rw [h] at hlen; simp at hlen; omega
  unfold RST.reconstruct
  rw [if_neg hne]
  cases sec with
  | semiHonest =>
    have := openAt_spread I n hn s tag c ring 0 (by omega)
    simp only [RST.reconstructSemiHonest]
    rw [h1] at this
    unfold RST.openAt at this
    rw [hlen, Nat.mod_eq_of_lt (by omega : 0 + 1 < n)] at this
    exact this
  | malicious =>
    simp only [RST.reconstructMalicious]
    have key : ∀ r ∈ List.range n, RST.openAt I (spread n s tag c ring) r = .ok v := by
      intro r hr
      have hr := List.mem_range.mp hr
      obtain ⟨w, k1, k2, k3⟩ := sum_rotate S n s hv r hr
      rw [openAt_spread I n hn s tag c ring r hr, k1, S.inj w v k2 h2 (by rw [k3, h3])]
    rw [hlen, openLoop_ok I _ v _ key none (.inl rfl) (.inl (by simp; omega))]
    rfl

end SyMPC
