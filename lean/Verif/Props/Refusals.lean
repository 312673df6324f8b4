import Verif.Model.Conv
import Verif.Props.Falcon
import Verif.Props.Session
import Verif.Props.Wraps
import Verif.Lemmas.Share

/-!
# C26, C32, C45, C58, C61, C63: which exception is raised
-/

namespace SyMPC

/-- C26: wrap-arounds are counted for every list of shares but the empty one, for which an `IndexError` is raised. -/
theorem C26_no_shares (l : List I64) : (∀ e, countWraps l = .error e ↔ l = [] ∧ e = .indexError) ∧ ((∃ v, countWraps l = .ok v) ↔ l ≠ []) := by
  cases l with
  | nil =>
    refine ⟨fun e => ⟨fun h => ?_, fun h => ?_⟩, ⟨fun ⟨v, h⟩ => ?_, fun h => absurd rfl h⟩⟩
    · cases h
      exact ⟨rfl, rfl⟩
    · rw [h.2]
      rfl
    · cases h
  | cons a l => simp [countWraps]

/-- C61: a share is combined with a public integer exactly if its session is known; otherwise an `AttributeError` is raised.  The result
belongs to that session. -/
theorem C61_session_needed (env : Env) (x : ShareTensor I64) (y : I64) :
    ((∃ z, ShareTensor.xorPublic env x y = .ok z) ↔ ∃ u p, x.sessionUuid = some u ∧ env u = some p) ∧
    (∀ e, ShareTensor.xorPublic env x y = .error e → e = .attributeError) ∧
    (∀ z, ShareTensor.xorPublic env x y = .ok z → z.sessionUuid = x.sessionUuid ∧ ∀ u p, x.sessionUuid = some u → env u = some p →
      z.config = p.config ∧ z.ringSize = p.ringSize) := by
  unfold ShareTensor.xorPublic
  cases hx : x.sessionUuid with
  | none => simp
  | some u =>
    cases hp : env u with
    | none => simp [hp]
    | some p =>
      simp only
      rw [hp]
      refine ⟨⟨fun _ => ⟨u, p, rfl, hp⟩, fun _ => ⟨_, rfl⟩⟩, fun e h => (by cases h), fun z h => ?_⟩
      cases h
      refine ⟨rfl, fun u' p' hu hp' => ?_⟩
      cases hu
      rw [hp] at hp'
      cases hp'
      exact ⟨rfl, rfl⟩

/-- C45: a secret that a party holds cannot be shared in a replicated way before `setup_mpc`. -/
theorem C45_remote_before_setup_replicated {P E : Type} (I : RingOps E) (enc : Config → P → E) (registered : List String)
    (parties : Option (List Nat)) (ring : Nat) (config : Option Config) (protocol : Option Protocol) (s : Session)
    (hs : Session.new registered parties ring config protocol = .ok s) (env : Env) (holder : Nat) (v : P) (zeros : List E) :
    RMPC.ofRemote I enc env s holder v zeros = .error .valueError := by
  obtain ⟨p, t, _, rfl⟩ := sessionNew_inv hs
  simp [RMPC.ofRemote, throw_eq_error, error_bind]

/-- C32: truncation in a ring that is supported needs three shares, and a ring that is not supported is refused, both by a `ValueError`. -/
theorem C32_refused {E : Type} (K : RingKit E) (xs : List E) (s : Session) (q : Nat) (c : Config) (r : E)
    (h : xs.length ≠ 3 ∨ q ∉ [2, 67, 2 ^ 8, 2 ^ 16, 2 ^ 32, 2 ^ 64]) : ABY3.truncationAlgorithm1 K xs s q c r = .error .valueError := by
  unfold ABY3.truncationAlgorithm1
  cases hq : getTypeFromRing q with
  | error e =>
    have : e = .valueError := by
      unfold getTypeFromRing at hq
      split_ifs at hq
      cases hq
      rfl
    rw [this]
  | ok t =>
    have hmem : q ∈ [2, 67, 2 ^ 8, 2 ^ 16, 2 ^ 32, 2 ^ 64] := by
      unfold getTypeFromRing at hq
      split_ifs at hq <;> simp_all
    simp only
    split
    · rcases h with h | h
      · exact absurd rfl h
      · exact absurd hmem h
    · rfl

/-- C63: kernels of a transposed convolution that do not fit the channels of the image, or groups that do not divide them, are refused by a
`RuntimeError`; so is everything else that is refused. -/
theorem C63_transposed_refused (a : Conv.Args) (x w : List Nat) :
    (∀ e, Conv.convTShape a x w = .error e → e = .runtimeError) ∧
    (∀ n c h v c' o kh kw, x = [n, c, h, v] → w = [c', o, kh, kw] → (a.groups = 0 ∨ c ≠ c' ∨ ¬ a.groups ∣ c) →
      Conv.convTShape a x w = .error .runtimeError) := by
  have dim : ∀ n k s p d e, Conv.outDimT n k s p d = .error e → e = .runtimeError := by
    intro n k s p d e h
    unfold Conv.outDimT at h
    split_ifs at h
    cases h
    rfl
  constructor
  · intro e h
    unfold Conv.convTShape at h
    split at h
    · split_ifs at h
      · cases h; rfl
      · revert h
        generalize h1 : Conv.outDimT _ _ _ _ _ = d1
        cases d1 with
        | error e1 => intro h; rw [error_bind] at h; cases h; exact dim _ _ _ _ _ _ h1
        | ok i =>
          rw [ok_bind]
          generalize h2 : Conv.outDimT _ _ _ _ _ = d2
          cases d2 with
          | error e1 => intro h; rw [error_bind] at h; cases h; exact dim _ _ _ _ _ _ h2
          | ok j => intro h; cases h
    · cases h; rfl
  · rintro n c h v c' o kh kw rfl rfl hc
    unfold Conv.convTShape
    simp only
    rw [if_pos]
    rcases hc with h | h | h
    · exact Or.inl h
    · exact Or.inr (Or.inl h)
    · exact Or.inr (Or.inr fun h0 => h (Nat.dvd_of_mod_eq_zero h0))

/-- C58: a registered class refuses every other security type by a `ValueError`, and the protocol that it makes has its class of shares. -/
theorem C58_instantiate_refused (cs : List ClassDef) (e : String × ClassDef) (he : e ∈ Registry.runAll [] cs) (t : Security) :
    ((∀ l, e.2.securityLevels = some l → t ∉ l) → e.2.instantiate t = .error .valueError) ∧
    (∀ p, e.2.instantiate t = .ok p → some p.shareClass = e.2.shareClass) := by
  obtain ⟨_, h2, h3, _⟩ := (C58_registry_invariant cs []).2.2 e he
  obtain ⟨sc, hsc⟩ := Option.ne_none_iff_exists'.mp h2
  obtain ⟨l, hl⟩ := Option.ne_none_iff_exists'.mp h3
  unfold ClassDef.instantiate
  rw [hsc, hl]
  refine ⟨fun h => ?_, fun p hp => ?_⟩
  · simp [h l rfl]
  · by_cases ht : t ∈ l
    · simp [ht] at hp
      rw [← hp]
    · simp [ht] at hp

/-! ## Cases -/

/-- a class with one security type, registered first -/
example : ("A", ⟨"A", some .additive, some [.semiHonest]⟩) ∈ Registry.runAll [] [⟨"A", some .additive, some [.semiHonest]⟩] ∧
    (⟨"A", some .additive, some [.semiHonest]⟩ : ClassDef).instantiate .malicious = .error .valueError := by decide


example : countWraps [] = .error .indexError ∧ countWraps [2 ^ 62, 2 ^ 62] = .ok 1 := by decide +kernel

example : (∃ s, Session.new ["FSS", "Falcon"] (some [1, 2, 3]) (2 ^ 64) none (some ⟨"Falcon", .replicated, .malicious⟩) = .ok s) :=
  ⟨_, rfl⟩

/-- three channels in two groups, and kernels for two channels of three -/
example : Conv.convTShape ⟨(1, 1), (0, 0), (1, 1), 2⟩ [1, 3, 4, 4] [3, 1, 2, 2] = .error .runtimeError ∧
    Conv.convTShape ⟨(1, 1), (0, 0), (1, 1), 1⟩ [1, 3, 4, 4] [2, 1, 2, 2] = .error .runtimeError ∧
    Conv.convTShape ⟨(1, 1), (0, 0), (1, 1), 1⟩ [1, 3, 4, 4] [3, 1, 2, 2] = .ok [1, 1, 5, 5] := ⟨rfl, rfl, rfl⟩

end SyMPC
