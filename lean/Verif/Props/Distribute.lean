import Verif.Lemmas.Share
import Verif.Props.Share

/-!
# C03: when shares can be handed out
-/

namespace SyMPC

variable {T : Type}

/-- handing out one share -/
def handOut (s : Session) (e : ShareTensor T × Nat) : Py (ShareTensor T) :=
  match s.rankToUuid[e.2]? with
  | none => .error .keyError
  | some u =>
    match s.parties[e.2]? with
    | none => .error .indexError
    | some _ => .ok { e.1 with sessionUuid := some u }

theorem handOut_fails (s : Session) (err : PyErr) (n : Nat) (hok : ∀ r < n, ∃ u p, s.rankToUuid[r]? = some u ∧ s.parties[r]? = some p)
    (herr : ∀ sh : ShareTensor T, handOut s (sh, n) = .error err) (shares : List (ShareTensor T)) :
    ∀ k, k ≤ n → n < k + shares.length → (shares.zipIdx k).mapM (handOut s) = .error err := by
  induction shares with
  | nil => intro k h1 h2; simp at h2; omega
  | cons a l ih =>
    intro k h1 h2
    rw [List.zipIdx_cons, List.mapM_cons]
    by_cases hk : k = n
    · subst hk
      rw [herr, error_bind]
    · obtain ⟨u, p, hu, hp⟩ := hok k (by omega)
      have : handOut s (a, k) = .ok { a with sessionUuid := some u } := by simp [handOut, hu, hp]
      rw [this, ok_bind, ih (k + 1) (by omega) (by simp at h2; omega), error_bind]

/-- C03: shares are handed out, share `r` unchanged to party `r`, exactly if the session has been set up with a party for every share; with
more shares than set up parties a `KeyError` is raised, with more than there are parties an `IndexError`. -/
theorem C03_distribute_decides (s : Session) (shares : List (ShareTensor T)) :
    (shares.length ≤ s.rankToUuid.length → shares.length ≤ s.parties.length →
      ∃ out, ShareTensor.distributeShares s shares = .ok out ∧ out.length = shares.length ∧
        ∀ r (h : r < shares.length), out[r]? = some { shares[r] with sessionUuid := s.rankToUuid[r]? }) ∧
    (s.rankToUuid.length < shares.length → s.rankToUuid.length ≤ s.parties.length →
      ShareTensor.distributeShares s shares = .error .keyError) ∧
    (s.parties.length < shares.length → s.parties.length < s.rankToUuid.length →
      ShareTensor.distributeShares s shares = .error .indexError) := by
  have key : ShareTensor.distributeShares s shares = (shares.zipIdx 0).mapM (handOut s) := rfl
  refine ⟨fun h1 h2 => ?_, fun h1 h2 => ?_, fun h1 h2 => ?_⟩
  · refine ⟨List.zipWith (fun sh u => { sh with sessionUuid := some u }) shares s.rankToUuid, ?_, by simp; omega, ?_⟩
    · rw [key, mapM_ok_iff, List.forall₂_iff_get]
      refine ⟨by simp; omega, ?_⟩
      intro i hi hi'
      have : i < shares.length := by simpa using hi
      have : i < s.rankToUuid.length := by omega
      have : i < s.parties.length := by omega
      simp [handOut, *]
    · intro r hr
      have : r < s.rankToUuid.length := by omega
      simp [*]
  · rw [key]
    refine handOut_fails s _ s.rankToUuid.length (fun r hr => ?_) (fun sh => ?_) shares 0 (by omega) (by omega)
    · exact ⟨_, _, List.getElem?_eq_getElem hr, List.getElem?_eq_getElem (by omega)⟩
    · simp [handOut]
  · rw [key]
    refine handOut_fails s _ s.parties.length (fun r hr => ?_) (fun sh => ?_) shares 0 (by omega) (by omega)
    · exact ⟨_, _, List.getElem?_eq_getElem (by omega), List.getElem?_eq_getElem hr⟩
    · simp [handOut, List.getElem?_eq_getElem h2]

/-- three parties: two shares are handed out, four are too many, and a session that is not set up takes none -/
example : let sh : ShareTensor I64 := ⟨7, none, {}, 2 ^ 64⟩
    (∃ out, ShareTensor.distributeShares exSession [sh, sh] = .ok out ∧ out.map (·.sessionUuid) = [some 100, some 101]) ∧
    ShareTensor.distributeShares exSession [sh, sh, sh, sh] = .error .keyError ∧
    ShareTensor.distributeShares { exSession with rankToUuid := [] } [sh, sh, sh] = .error .keyError ∧
    ShareTensor.distributeShares { exSession with parties := [10, 11] } [sh, sh, sh] = .error .indexError :=
  ⟨⟨_, rfl, rfl⟩, rfl, rfl, rfl⟩

end SyMPC
