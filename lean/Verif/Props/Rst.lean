import Verif.Lemmas.Rst
import Mathlib.Tactic.LinearCombination
import Verif.Lemmas.Share
import Verif.Lemmas.Ring
import Verif.Props.Ring
import Verif.Model.Przs

/-!
# C08-C10, C60: replicated sharing and its openings
-/

namespace SyMPC

variable {E R : Type} [CommRing R] {I : RingOps E}

/-! ## C08 -/

/-- the shares of a list, as a function -/
theorem list_eq_range {l : List E} (d : E) : l = (List.range l.length).map fun i => l.getD i d := by
  apply List.ext_getElem
  · simp
  · intro i h1 h2; simp [List.getD_eq_getElem?_getD, List.getElem?_eq_getElem h1]

theorem distribute_ok (s : Session) (hn : 2 ≤ s.nrParties) (hp : s.parties.length = s.nrParties)
    (hr : s.rankToUuid.length = s.nrParties) (f : Nat → E) (ring : Nat) (c : Config) :
    RST.distributeShares ((List.range s.nrParties).map f) s ring c
      = .ok (spread s.nrParties f (fun r => s.rankToUuid[r]?) c ring) := by
  unfold RST.distributeShares
  rw [if_neg (by simp)]
  apply mapM_ok
  intro r hrm
  have hr' := List.mem_range.mp hrm
  unfold RST.distributeToParty
  rw [pyGet_ok (by omega), ok_bind]
  have h1 : (List.range' r (s.nrParties - 1)).mapM
      (fun i => pyGet ((List.range s.nrParties).map f) (i % (s.nrParties - 1 + 1)))
      = .ok ((List.range' r (s.nrParties - 1)).map fun i => f (i % s.nrParties)) := by
    apply mapM_ok
    intro i _
    have hlt : i % s.nrParties < s.nrParties := Nat.mod_lt _ (by omega)
    rw [show s.nrParties - 1 + 1 = s.nrParties by omega, pyGet_ok (by simpa using hlt)]
    simp
  simp only [h1, ok_bind]
  rw [List.getElem?_eq_getElem (by omega)]
  simp only [pure_eq_ok]
  congr 2
  rw [List.range'_eq_map_range, held, List.map_map]
  rfl

/-- C08: party `r` holds a permutation of all shares except share `r - 1` (modulo the number of parties), under its
own session, and both ways of opening give the ring sum of the shares. -/
theorem C08_replicated_roundtrip [DecidableEq E] (S : RingSem I R) (s : Session) (hn : 2 ≤ s.nrParties)
    (hp : s.parties.length = s.nrParties) (hr : s.rankToUuid.length = s.nrParties) (shares : List E)
    (hlen : shares.length = s.nrParties) (hv : ∀ a ∈ shares, S.Valid a) (ring : Nat) (c : Config) :
    ∃ ps, RST.distributeShares shares s ring c = .ok ps ∧ ps.length = s.nrParties ∧
      (∀ r < s.nrParties, ∃ p, ps[r]? = some p ∧ p.sessionUuid = s.rankToUuid[r]? ∧
        p.shares.Perm (shares.eraseIdx ((r + s.nrParties - 1) % s.nrParties))) ∧
      ∀ sec, ∃ v, RST.reconstruct I ps sec = .ok v ∧ S.Valid v ∧ S.den v = (shares.map S.den).sum := by
  obtain ⟨d, hd⟩ : ∃ d, d ∈ shares := List.exists_mem_of_length_pos (by omega)
  have hf := list_eq_range (l := shares) d
  rw [hlen] at hf
  generalize hF : (fun i => shares.getD i d) = f at hf
  rw [hf, distribute_ok s hn hp hr f ring c]
  refine ⟨_, rfl, by simp [spread], ?_, ?_⟩
  · intro r hr'
    refine ⟨RST.new (held s.nrParties f r) s.rankToUuid[r]? c ring, by simp [spread, hr'], rfl, ?_⟩
    have h1 := held_snoc s.nrParties f r (by omega)
    have h2 := List.rotate_perm ((List.range s.nrParties).map f) r
    rw [← h1] at h2
    have hi : (r + s.nrParties - 1) % s.nrParties < ((List.range s.nrParties).map f).length := by
      simpa using Nat.mod_lt _ (by omega)
    have h3 := List.getElem_cons_eraseIdx_perm hi
    have h4 := (List.perm_append_singleton _ _).symm.trans (h2.trans h3.symm)
    have h5 : ((List.range s.nrParties).map f)[(r + s.nrParties - 1) % s.nrParties]
        = f ((r + (s.nrParties - 1)) % s.nrParties) := by
      simp only [List.getElem_map, List.getElem_range]
      congr 2; omega
    rw [h5] at h4
    exact h4.cons_inv
  · intro sec
    have hv' : ∀ i < s.nrParties, S.Valid (f i) := by
      intro i hi
      apply hv
      rw [hf]
      exact List.mem_map.mpr ⟨i, List.mem_range.mpr hi, rfl⟩
    obtain ⟨v, h1, h2, h3⟩ := reconstruct_spread S s.nrParties hn f hv' (fun r => s.rankToUuid[r]?) c ring sec
    exact ⟨v, h1, h2, by rw [h3, total, List.map_map]; rfl⟩

/-! ## C09, C10 -/

/-- openings that do not touch the corrupted party -/
theorem openAt_set (I : RingOps E) (n : Nat) (hn : 2 ≤ n) (s : Nat → E) (tag : Nat → Option Nat) (c : Config) (ring : Nat)
    (bad : Nat) (t : RST E) (r : Nat) (hr : r < n) (h1 : r ≠ bad) (h2 : (r + 1) % n ≠ bad) :
    RST.openAt I ((spread n s tag c ring).set bad t) r = I.sum (((List.range n).map s).rotate r) := by
  rw [← openAt_spread I n hn s tag c ring r hr]
  unfold RST.openAt pyGet
  simp only [List.length_set]
  have hlen : (spread n s tag c ring).length = n := by simp [spread]
  rw [hlen, List.getElem?_set_ne (Ne.symm h1), List.getElem?_set_ne (Ne.symm h2)]

/-- C09: with three or more parties, whatever object the corrupted party hands in (any shares, any number of them),
an accepted opening gives the true secret. -/
theorem C09_malicious_opening_sound [DecidableEq E] (S : RingSem I R) (n : Nat) (hn : 3 ≤ n) (s : Nat → E)
    (hv : ∀ i < n, S.Valid (s i)) (tag : Nat → Option Nat) (c : Config) (ring : Nat) (bad : Nat) (t : RST E) (v : E)
    (h : RST.reconstruct I (((List.range n).map fun r => RST.new (held n s r) (tag r) c ring).set bad t) .malicious = .ok v) :
    S.den v = ((List.range n).map fun i => S.den (s i)).sum := by
  change RST.reconstruct I ((spread n s tag c ring).set bad t) .malicious = .ok v at h
  have hlen : ((spread n s tag c ring).set bad t).length = n := by simp [spread]
  unfold RST.reconstruct at h
  split at h
  · cases h
  simp only at h
  have hall := reconstructMalicious_inv I _ v h
  rw [hlen] at hall
  -- a rank that reads only honest shares
  obtain ⟨r, hr, h1, h2⟩ : ∃ r < n, r ≠ bad ∧ (r + 1) % n ≠ bad := by
    by_cases hb : bad + 1 < n
    · refine ⟨bad + 1, hb, by omega, ?_⟩
      by_cases h2 : bad + 2 < n
      · rw [Nat.mod_eq_of_lt h2]; omega
      · have : bad + 1 + 1 = n := by omega
        rw [this, Nat.mod_self]; omega
    · refine ⟨0, by omega, by omega, ?_⟩
      rw [Nat.mod_eq_of_lt (by omega)]; omega
  have h3 := hall r hr
  rw [openAt_set I n (by omega) s tag c ring bad t r hr h1 h2] at h3
  obtain ⟨w, k1, _, k3⟩ := sum_rotate S n s hv r hr
  rw [k1] at h3
  cases h3
  exact k3

/-- C09: and the only other outcome, when the corrupted party hands in at least one ring element, is `ValueError`. -/
theorem C09_rejection_is_value_error [DecidableEq E] (S : RingSem I R) (ps : List (RST E)) (hne : ps ≠ [])
    (h : ∀ p ∈ ps, p.shares ≠ [] ∧ ∀ a ∈ p.shares, S.Valid a) :
    RST.reconstruct I ps .malicious = .error .valueError ∨ ∃ v, RST.reconstruct I ps .malicious = .ok v := by
  have hopen : ∀ r < ps.length, ∃ t, RST.openAt I ps r = .ok t := by
    intro r hr
    have hm : (r + 1) % ps.length < ps.length := Nat.mod_lt _ (by omega)
    have hp := h ps[r] (List.getElem_mem hr)
    have hq := h ps[(r + 1) % ps.length] (List.getElem_mem hm)
    have h0 : 0 < ps[r].shares.length := List.length_pos_iff.mpr hp.1
    unfold RST.openAt
    rw [pyGet_ok hr, ok_bind, pyGet_ok h0, ok_bind, pyGet_ok hm, ok_bind]
    obtain ⟨w, hw, _⟩ := S.sum (ps[r].shares[0] :: ps[(r + 1) % ps.length].shares) (by simp) (by
      intro a ha
      rcases List.mem_cons.mp ha with rfl | ha
      · exact hp.2 _ (List.getElem_mem h0)
      · exact hq.2 _ ha)
    exact ⟨w, hw⟩
  have loop : ∀ (rs : List Nat) (o : Option E), (∀ r ∈ rs, r < ps.length) →
      RST.openLoop I ps rs o = .error .valueError ∨ ∃ o', RST.openLoop I ps rs o = .ok o' := by
    intro rs
    induction rs with
    | nil => intro o _; exact .inr ⟨o, rfl⟩
    | cons r rs ih =>
      intro o hrs
      obtain ⟨t, ht⟩ := hopen r (hrs r (by simp))
      have hrs' : ∀ q ∈ rs, q < ps.length := fun q hq => hrs q (by simp [hq])
      rw [RST.openLoop, ht]
      cases o with
      | none => exact ih _ hrs'
      | some w =>
        simp only [ok_bind]
        split
        · exact .inl rfl
        · exact ih _ hrs'
  unfold RST.reconstruct
  rw [if_neg hne]
  simp only [RST.reconstructMalicious]
  rcases loop (List.range ps.length) none (fun r hr => List.mem_range.mp hr) with h1 | ⟨o, h1⟩
  · left; rw [h1]; rfl
  · right
    cases o with
    | some v => exact ⟨v, by rw [h1]; rfl⟩
    | none =>
      have := openLoop_none I ps _ _ h1
      simp at this
      exact absurd this hne

/-- C10: with exactly three parties every lie about a share is detected. -/
theorem C10_three_party_detects [DecidableEq E] (S : RingSem I R) (s : Nat → E) (hv : ∀ i < 3, S.Valid (s i))
    (tag : Nat → Option Nat) (c : Config) (ring : Nat) (bad : Nat) (hb : bad < 3) (t : RST E) (a b : E)
    (ht : t.shares = [a, b]) (ha : S.Valid a) (hb' : S.Valid b) (hne : t.shares ≠ held 3 s bad) :
    RST.reconstruct I (((List.range 3).map fun r => RST.new (held 3 s r) (tag r) c ring).set bad t) .malicious
      = .error .valueError := by
  rcases C09_rejection_is_value_error S (((List.range 3).map fun r => RST.new (held 3 s r) (tag r) c ring).set bad t)
    (by intro h0; have := congrArg List.length h0; simp at this) (by
      intro p hp
      rcases List.mem_or_eq_of_mem_set hp with h | h
      · obtain ⟨r, hr, rfl⟩ := List.mem_map.mp h
        refine ⟨by simp [RST.new, held], ?_⟩
        intro x hx
        simp only [RST.new, held, List.mem_map] at hx
        obtain ⟨k, _, rfl⟩ := hx
        exact hv _ (Nat.mod_lt _ (by omega))
      · rw [h, ht]
        refine ⟨by simp, ?_⟩
        intro x hx
        simp at hx
        rcases hx with rfl | rfl <;> assumption) with h | ⟨v, h⟩
  · exact h
  exfalso
  have hsum := C09_malicious_opening_sound S 3 (by omega) s hv tag c ring bad t v h
  unfold RST.reconstruct at h
  split at h
  · cases h
  simp only at h
  have hall := reconstructMalicious_inv I _ v h
  simp only [List.length_set, List.length_map, List.length_range] at hall
  -- the sums at the two ranks that use the corrupted shares
  have hsum3 : ∀ x y z : E, S.Valid x → S.Valid y → S.Valid z → I.sum [x, y, z] = .ok v →
      S.den v = S.den x + S.den y + S.den z := by
    intro x y z hx hy hz hs
    obtain ⟨w, h1, _, h3⟩ := S.sum [x, y, z] (by simp) (by intro q hq; simp at hq; rcases hq with rfl | rfl | rfl <;> assumption)
    rw [hs] at h1
    cases h1
    rw [h3]; simp [add_assoc]
  have v0 := hv 0 (by omega)
  have v1 := hv 1 (by omega)
  have v2 := hv 2 (by omega)
  have h0 := hall 0 (by omega)
  have h1 := hall 1 (by omega)
  have h2 := hall 2 (by omega)
  apply hne
  rw [ht]
  have hr3 : (List.range 3) = [0, 1, 2] := rfl
  have hr2 : (List.range 2) = [0, 1] := rfl
  rw [hr3] at hsum
  simp only [List.map_cons, List.map_nil, List.sum_cons, List.sum_nil, add_zero] at hsum
  have hcase : bad = 0 ∨ bad = 1 ∨ bad = 2 := by omega
  rcases hcase with rfl | rfl | rfl
  · simp [RST.openAt, hr3, pyGet, RST.new, held, ht, hr2, bind, Except.bind] at h0 h1 h2
    have e0 := hsum3 _ _ _ ha v1 v2 h0
    have e2 := hsum3 _ _ _ v2 ha hb' h2
    have ea : S.den a = S.den (s 0) := by linear_combination hsum - e0
    have eb : S.den b = S.den (s 1) := by linear_combination e0 - e2
    rw [S.inj _ _ ha v0 ea, S.inj _ _ hb' v1 eb]
    rfl
  · simp [RST.openAt, hr3, pyGet, RST.new, held, ht, hr2, bind, Except.bind] at h0 h1 h2
    have e0 := hsum3 _ _ _ v0 ha hb' h0
    have e1 := hsum3 _ _ _ ha v2 v0 h1
    have ea : S.den a = S.den (s 1) := by linear_combination hsum - e1
    have eb : S.den b = S.den (s 2) := by linear_combination e1 - e0
    rw [S.inj _ _ ha v1 ea, S.inj _ _ hb' v2 eb]
    rfl
  · simp [RST.openAt, hr3, pyGet, RST.new, held, ht, hr2, bind, Except.bind] at h0 h1 h2
    have e1 := hsum3 _ _ _ v1 ha hb' h1
    have e2 := hsum3 _ _ _ ha v0 v1 h2
    have ea : S.den a = S.den (s 2) := by linear_combination hsum - e2
    have eb : S.den b = S.den (s 0) := by linear_combination e2 - e1
    rw [S.inj _ _ ha v2 ea, S.inj _ _ hb' v0 eb]
    rfl


example : RST.reconstruct primeOps (((List.range 3).map fun r =>
      RST.new (held 3 (fun i => BitVec.ofNat 8 (30 * i + 6)) r) (some (100 + r)) {} 67).set 1
        ⟨[66#8, 36#8], none, {}, 67⟩) .malicious = .error .valueError ∧
    RST.reconstruct primeOps (((List.range 3).map fun r =>
      RST.new (held 3 (fun i => BitVec.ofNat 8 (30 * i + 6)) r) (some (100 + r)) {} 67)) .malicious = .ok 41#8 := by
  decide

/-- C10 needs exactly three parties: with four, a party can move an amount between two of its shares unnoticed
(the opened value is still right, by C09). -/
theorem C10_four_parties_undetected :
    ∃ (s : Nat → I64) (t : RST I64), t.shares ≠ held 4 s 1 ∧ t.shares.length = 3 ∧
      RST.reconstruct (powOps 64) (((List.range 4).map fun r => RST.new (held 4 s r) none {} (2 ^ 64)).set 1 t) .malicious
        = .ok 10 := by
  refine ⟨fun i => BitVec.ofNat 64 (i + 1), ⟨[2, 4, 3], none, {}, 2 ^ 64⟩, ?_, rfl, ?_⟩ <;> decide +kernel

/-! ## C60 -/

/-- C60 fails for the code: a first party that hands in its true shares but claims they are in the ring 2 makes the
opening accept the xor of the shares instead of their sum. -/
theorem C60_first_party_chooses_ring :
    ∃ (s : Nat → I64) (t : RST I64) (v : I64), t.shares = held 3 s 0 ∧
      openTagged ((List.range 3).map fun r => RST.new (held 3 s r) none {} (2 ^ 64)) = .ok (s 0 + s 1 + s 2) ∧
      openTagged (((List.range 3).map fun r => RST.new (held 3 s r) none {} (2 ^ 64)).set 0 t) = .ok v ∧
      v ≠ s 0 + s 1 + s 2 := by
  refine ⟨fun _ => 1, ⟨[1, 1], none, {}, 2⟩, 1, ?_, ?_, ?_, ?_⟩ <;> decide +kernel

/-- C60 (partial): when the corrupted party is not the first one, an accepted opening is the sum of the shares,
whatever ring the corrupted party claims.  Missing: the first party, see `C60_first_party_chooses_ring`. -/
theorem C60_other_party_cannot_partial (n : Nat) (hn : 3 ≤ n) (s : Nat → I64) (tag : Nat → Option Nat) (c : Config)
    (bad : Nat) (hb : bad ≠ 0) (t : RST I64) (v : I64)
    (h : openTagged (((List.range n).map fun r => RST.new (held n s r) (tag r) c (2 ^ 64)).set bad t) = .ok v) :
    v = ((List.range n).map s).sum := by
  have h0 : pyGet (((List.range n).map fun r => RST.new (held n s r) (tag r) c (2 ^ 64)).set bad t) 0
      = .ok (RST.new (held n s 0) (tag 0) c (2 ^ 64)) := by
    unfold pyGet
    rw [List.getElem?_set_ne hb]
    have := pyGet_spread (s := s) (tag := tag) (c := c) (ring := 2 ^ 64) (r := 0) (n := n) (by omega)
    exact this
  unfold openTagged at h
  rw [h0, ok_bind] at h
  have e : (sumByRing (RST.new (held n s 0) (tag 0) c (2 ^ 64)).ringSize) = (powOps 64).sum := by
    funext l
    simp [sumByRing, RST.new, primeNumber, powOps]
  rw [e] at h
  have h' : RST.reconstruct (powOps 64) (((List.range n).map fun r => RST.new (held n s r) (tag r) c (2 ^ 64)).set bad t)
      .malicious = .ok v := by
    unfold RST.reconstruct
    rw [if_neg (by intro h0; have := congrArg List.length h0; simp at this; omega)]
    exact h
  have := C09_malicious_opening_sound (powSem 64) n hn s (fun _ _ => trivial) tag c (2 ^ 64) bad t v h'
  simpa [powSem] using this

/-- C60: all that any lie of the first party about its ring and its shares can achieve: an accepted opening is the sum of the
shares or, if it claims the ring 2, their xor; the claim that they are in the prime ring is never accepted. -/
theorem C60_first_party_outcomes (n : Nat) (hn : 3 ≤ n) (s : Nat → I64) (tag : Nat → Option Nat) (c : Config) (t : RST I64) (v : I64)
    (h : openTagged (((List.range n).map fun r => RST.new (held n s r) (tag r) c (2 ^ 64)).set 0 t) = .ok v) :
    (t.ringSize = 2 ∧ v = ((List.range n).map s).foldl (· ^^^ ·) 0) ∨
    (t.ringSize ≠ 2 ∧ t.ringSize ≠ 67 ∧ v = ((List.range n).map s).sum) := by
  have h0 : pyGet (((List.range n).map fun r => RST.new (held n s r) (tag r) c (2 ^ 64)).set 0 t) 0 = .ok t := by
    unfold pyGet
    rw [List.getElem?_set_self (by simpa using (by omega : 0 < n))]
  unfold openTagged at h
  rw [h0, ok_bind] at h
  have h1 := reconstructMalicious_inv _ _ v h 1 (by simpa using (by omega : 1 < n))
  rw [show ((List.range n).map fun r => RST.new (held n s r) (tag r) c (2 ^ 64)) = spread n s tag c (2 ^ 64) from rfl,
    openAt_set _ n (by omega) s tag c (2 ^ 64) 0 t 1 (by omega) (by omega) (by
      by_cases h2 : 2 < n
      · rw [Nat.mod_eq_of_lt h2]; omega
      · omega)] at h1
  have hperm := List.rotate_perm ((List.range n).map s) 1
  have hlen : (((List.range n).map s).rotate 1).length = n := by simp
  revert h1 hperm hlen
  generalize ((List.range n).map s).rotate 1 = l
  intro h1 hperm hlen
  change sumByRing t.ringSize l = .ok v at h1
  match l, hlen, h1, hperm with
  | [], hlen, _, _ => simp at hlen; omega
  | [a], hlen, _, _ => simp at hlen; omega
  | a :: b :: l, _, h1, hperm =>
    unfold sumByRing at h1
    split at h1
    · rename_i h2
      refine .inl ⟨h2, ?_⟩
      have hc : RightCommutative (fun a b : I64 => a ^^^ b) := ⟨fun a b c => by rw [BitVec.xor_assoc, BitVec.xor_comm b, ← BitVec.xor_assoc]⟩
      rw [← hperm.foldl_eq]
      simpa [reduce1] using h1.symm
    · rename_i h2
      split at h1
      · simp at h1
      · rename_i h3
        refine .inr ⟨h2, h3, ?_⟩
        rw [← hperm.sum_eq]
        have := Except.ok.inj h1
        rw [← this, List.sum_eq_foldl]

/-- the prime ring and the ring 2 claimed by the first party of a sharing of 7 -/
example : let ps := (List.range 3).map fun r => RST.new (held 3 (fun i => if i = 0 then 4 else if i = 1 then 2 else 1) r) none {} (2 ^ 64)
    openTagged (ps.set 0 ⟨[4, 2], none, {}, 67⟩) = .error .valueError ∧ openTagged (ps.set 0 ⟨[4, 2], none, {}, 2⟩) = .ok (7 : I64) ∧
    openTagged (ps.set 0 ⟨[5, 2], none, {}, 2⟩) = .error .valueError := by
  decide +kernel

end SyMPC
