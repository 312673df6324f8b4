import Verif.Model.GetShares
import Verif.Props.Rst

/-!
# C97: `get_shares` returns the shares of the secret
-/

namespace SyMPC

variable {E R : Type} [CommRing R] {I : RingOps E}

/-- C97, additive shares: `get_shares` fails if `reconstruct` fails and with the same exception; otherwise it returns one tensor for each share,
in their order, and they add up to what `reconstruct` returns (before it is decoded). -/
theorem C97_additive {T : Type} [AddCommMonoid T] (x : MPCTensor T) :
    (∃ e, x.reconstruct = .error e ∧ x.getShares = .error e) ∨
    ∃ l v, x.reconstruct = .ok v ∧ x.getShares = .ok (.flat l) ∧ l.length = x.shares.length ∧ l.sum = v ∧
      ∀ r (h : r < x.shares.length), l[r]? = some x.shares[r].tensor := by
  unfold MPCTensor.reconstruct MPCTensor.getShares ShareTensor.reconstruct ShareTensor.getShares
  by_cases h : x.shares = []
  · rw [if_pos h, if_pos h]
    exact Or.inl ⟨_, rfl, rfl⟩
  · rw [if_neg h, if_neg h]
    refine Or.inr ⟨_, _, rfl, rfl, by simp, ?_, fun r hr => by simp [hr]⟩
    rw [List.sum_eq_foldl]

/-- C97, replicated shares, semi-honest (missing: malicious security, where the form of the result is another one): what is returned are the shares that the secret was split into, all of them, in their order; they add
up in the ring to what `reconstruct` returns. -/
theorem C97_semi_honest_partial [DecidableEq E] (S : RingSem I R) (s : Session) (hn : 2 ≤ s.nrParties) (hp : s.parties.length = s.nrParties)
    (hr : s.rankToUuid.length = s.nrParties) (shares : List E) (hlen : shares.length = s.nrParties) (hv : ∀ a ∈ shares, S.Valid a)
    (ring : Nat) (c : Config) :
    ∃ ps v, RST.distributeShares shares s ring c = .ok ps ∧ RST.getShares I ps .semiHonest = .ok (.flat shares) ∧
      RST.reconstruct I ps .semiHonest = .ok v ∧ (shares.map S.den).sum = S.den v := by
  obtain ⟨ps, h1, -, -, h4⟩ := C08_replicated_roundtrip S s hn hp hr shares hlen hv ring c
  obtain ⟨v, h5, -, h6⟩ := h4 .semiHonest
  refine ⟨ps, v, h1, ?_, h5, h6.symm⟩
  obtain ⟨d, hd⟩ : ∃ d, d ∈ shares := List.exists_mem_of_length_pos (by omega)
  have hf := list_eq_range (l := shares) d
  rw [hlen] at hf
  generalize (fun i => shares.getD i d) = f at hf
  rw [hf, distribute_ok s hn hp hr f ring c] at h1
  obtain rfl := Except.ok.inj h1
  have hne : spread s.nrParties f (fun r => s.rankToUuid[r]?) c ring ≠ [] := by
    intro h
    have := congrArg List.length h
    simp [spread] at this
    omega
  unfold RST.getShares
  rw [if_neg hne]
  dsimp only
  unfold RST.getSharesSemiHonest
  rw [pyGet_spread (by omega), ok_bind]
  have h0 : pyGet (RST.new (held s.nrParties f 0) s.rankToUuid[0]? c ring).shares 0 = .ok (f 0) := by
    show pyGet (held s.nrParties f 0) 0 = _
    rw [pyGet_ok (by rw [held_length]; omega)]
    simp [held]
  rw [h0, ok_bind, pyGet_spread (by omega), ok_bind]
  show Except.ok (Got.flat (f 0 :: held s.nrParties f 1)) = _
  have := held_cons s.nrParties f 0 (by omega)
  rw [Nat.mod_eq_of_lt (by omega), List.rotate_zero] at this
  rw [this, ← hf]

theorem of_bind_pure {α β : Type} {x : Py α} {b c : β} (h : (do let _ ← x; return b) = (.ok c : Py β)) : b = c := by
  cases x with
  | error e => cases h
  | ok a => exact Except.ok.inj h

/-- C97, malicious security: whatever the parties hand in, `get_shares` fails exactly if `reconstruct` fails, and with the same exception. -/
theorem C97_malicious_checked [DecidableEq E] (ps : List (RST E)) (e : PyErr) :
    RST.getShares I ps .malicious = .error e ↔ RST.reconstruct I ps .malicious = .error e := by
  unfold RST.getShares RST.reconstruct
  split
  · exact ⟨fun h => (by cases h; rfl), fun h => (by cases h; rfl)⟩
  · rename_i hne
    dsimp only
    unfold RST.getSharesMalicious RST.reconstructMalicious
    cases h : RST.openLoop I ps (List.range ps.length) none with
    | error e' => exact ⟨fun h => (by cases h; rfl), fun h => (by cases h; rfl)⟩
    | ok o =>
      cases o with
      | some v => exact ⟨fun h => (by cases h), fun h => (by cases h)⟩
      | none =>
        have := openLoop_none I ps _ _ h
        rw [List.range_eq_nil] at this
        exact absurd (List.eq_nil_of_length_eq_zero this) hne

/-- C97, three parties, malicious security: shares that a party has made up are not returned. -/
theorem C97_three_party_honest [DecidableEq E] (S : RingSem I R) (s : Nat → E) (hv : ∀ i < 3, S.Valid (s i)) (tag : Nat → Option Nat) (c : Config)
    (ring : Nat) (bad : Nat) (hb : bad < 3) (t : RST E) (a b : E) (ht : t.shares = [a, b]) (ha : S.Valid a) (hb' : S.Valid b) (g : Got E)
    (h : RST.getShares I (((List.range 3).map fun r => RST.new (held 3 s r) (tag r) c ring).set bad t) .malicious = .ok g) :
    g = .nested [[s 0, s 1], [s 1, s 2], [s 2, s 0]] := by
  have honest : t.shares = held 3 s bad := by
    by_contra hne
    rw [(C97_malicious_checked _ _).mpr (C10_three_party_detects S s hv tag c ring bad hb t a b ht ha hb' hne)] at h
    cases h
  unfold RST.getShares at h
  split at h
  · cases h
  dsimp only at h
  unfold RST.getSharesMalicious at h
  obtain rfl := of_bind_pure h
  obtain rfl | rfl | rfl : bad = 0 ∨ bad = 1 ∨ bad = 2 := by omega
  all_goals
    simp only [List.range_succ, List.range_zero, List.nil_append, List.map_cons, List.map_nil, List.cons_append, List.set, honest]
    rfl

/-- C97 fails for malicious security: what is returned is not a list of shares but what each party holds, a list of lists, in which every share
occurs once less than there are parties: all of it adds up to the secret times the number of parties but one. -/
theorem C97_malicious_nested [DecidableEq E] (S : RingSem I R) (s : Session) (hn : 2 ≤ s.nrParties) (hp : s.parties.length = s.nrParties)
    (hr : s.rankToUuid.length = s.nrParties) (shares : List E) (hlen : shares.length = s.nrParties) (hv : ∀ a ∈ shares, S.Valid a)
    (ring : Nat) (c : Config) :
    ∃ ps l v, RST.distributeShares shares s ring c = .ok ps ∧ RST.getShares I ps .malicious = .ok (.nested l) ∧ l.length = s.nrParties ∧
      RST.reconstruct I ps .malicious = .ok v ∧ ((l.flatten).map S.den).sum = (s.nrParties - 1 : R) * S.den v := by
  obtain ⟨ps, h1, -, -, h4⟩ := C08_replicated_roundtrip S s hn hp hr shares hlen hv ring c
  obtain ⟨v, h5, -, h6⟩ := h4 .malicious
  have hg : ∃ g, RST.getShares I ps .malicious = .ok g := by
    cases h : RST.getShares I ps .malicious with
    | ok g => exact ⟨g, rfl⟩
    | error e =>
      rw [(C97_malicious_checked _ _).mp h] at h5
      cases h5
  obtain ⟨g, hg⟩ := hg
  have hgl : g = .nested (ps.map (·.shares)) := by
    unfold RST.getShares at hg
    split at hg
    · cases hg
    dsimp only at hg
    unfold RST.getSharesMalicious at hg
    exact (of_bind_pure hg).symm
  obtain ⟨d, hd⟩ : ∃ d, d ∈ shares := List.exists_mem_of_length_pos (by omega)
  have hf := list_eq_range (l := shares) d
  rw [hlen] at hf
  generalize (fun i => shares.getD i d) = f at hf
  have h1' := h1
  rw [hf, distribute_ok s hn hp hr f ring c] at h1'
  obtain rfl := Except.ok.inj h1'
  refine ⟨_, _, v, h1, by rw [hg, hgl], by simp [spread], h5, ?_⟩
  rw [h6, hf, List.map_map]
  generalize s.nrParties = n at hn
  -- what the party `r` holds, and the share that it does not hold
  have key : ∀ r, ((held n f r).map S.den).sum = ((List.range n).map fun i => S.den (f i)).sum - S.den (f ((r + (n - 1)) % n)) := by
    intro r
    have h := held_snoc n f r (by omega)
    have h2 := ((List.rotate_perm ((List.range n).map f) r).map S.den).sum_eq
    rw [← h, List.map_append, List.sum_append, List.map_map] at h2
    rw [eq_sub_iff_add_eq]
    simpa [Function.comp_def] using h2
  have hmiss : ((List.range n).map fun r => S.den (f ((r + (n - 1)) % n))).sum = ((List.range n).map fun i => S.den (f i)).sum := by
    have h := rotate_range n (fun i => S.den (f i)) (n - 1)
    rw [show (fun r => S.den (f ((r + (n - 1)) % n))) = fun k => S.den (f ((n - 1 + k) % n)) from funext fun k => by rw [Nat.add_comm], h]
    exact (List.rotate_perm _ _).sum_eq
  have hall : ∀ m, ((((List.range m).map fun r => held n f r).flatten).map S.den).sum
      = m * ((List.range n).map fun i => S.den (f i)).sum - ((List.range m).map fun r => S.den (f ((r + (n - 1)) % n))).sum := by
    intro m
    induction m with
    | zero => simp
    | succ m ih =>
      rw [List.range_succ, List.map_append, List.flatten_append, List.map_append, List.sum_append, ih, List.map_append, List.sum_append]
      simp only [List.map_cons, List.map_nil, List.flatten_cons, List.flatten_nil, List.append_nil, List.sum_cons, List.sum_nil, add_zero, key]
      push_cast
      ring
  have h := hall n
  rw [hmiss] at h
  have e : (spread n f (fun r => s.rankToUuid[r]?) c ring).map (·.shares) = (List.range n).map fun r => held n f r := by
    unfold spread
    rw [List.map_map]
    rfl
  rw [e, h]
  show _ = ((n : R) - 1) * ((List.range n).map fun i => S.den (f i)).sum
  ring

/-! ## Examples -/

/-- the shares 3, 5 and 9 of 17 -/
example : RST.getShares (powOps 64) ((List.range 3).map fun r => RST.new (held 3 (fun i => [3, 5, 9].getD i 0) r) none {} (2 ^ 64)) .semiHonest
      = .ok (.flat [3, 5, 9]) ∧
    RST.getShares (powOps 64) ((List.range 3).map fun r => RST.new (held 3 (fun i => [3, 5, 9].getD i 0) r) none {} (2 ^ 64)) .malicious
      = .ok (.nested [[3, 5], [5, 9], [9, 3]]) := by
  decide +kernel

/-- a lie is noticed, and noticed only with malicious security -/
example : RST.getShares (powOps 64) (((List.range 3).map fun r => RST.new (held 3 (fun i => [3, 5, 9].getD i 0) r) none {} (2 ^ 64)).set 1
      ⟨[5, 8], none, {}, 2 ^ 64⟩) .malicious = .error .valueError ∧
    RST.getShares (powOps 64) (((List.range 3).map fun r => RST.new (held 3 (fun i => [3, 5, 9].getD i 0) r) none {} (2 ^ 64)).set 1
      ⟨[5, 8], none, {}, 2 ^ 64⟩) .semiHonest = .ok (.flat [3, 5, 8]) := by
  decide +kernel

/-- additive shares of 17, and no shares -/
example : ShareTensor.getShares ([3, 5, 9].map fun v => (⟨v, none, {}, 2 ^ 64⟩ : ShareTensor I64)) = .ok (.flat [3, 5, 9]) ∧
    ShareTensor.getShares ([] : List (ShareTensor I64)) = .error .valueError := by
  decide +kernel

/-- the hypotheses are met -/
example : ∃ s : Session, 2 ≤ s.nrParties ∧ s.parties.length = s.nrParties ∧ s.rankToUuid.length = s.nrParties ∧
    ([3, 5, 9] : List I64).length = s.nrParties ∧ ∀ a ∈ ([3, 5, 9] : List I64), (powSem 64).Valid a :=
  ⟨{ uuid := some 103, parties := [10, 11, 12], nrParties := 3,
     protocol := { name := "Falcon", shareClass := .replicated, security := .malicious }, config := {},
     ringSize := 2 ^ 64, tensorType := .int64, minValue := -2 ^ 63, maxValue := 2 ^ 63 - 1, rankToUuid := [100, 101, 102],
     sessionPtrs := [], autogradActive := false }, by decide, rfl, rfl, rfl, fun _ _ => trivial⟩

end SyMPC
