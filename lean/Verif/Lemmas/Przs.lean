import Verif.Model.Przs
import Verif.Lemmas.Share
import Verif.Spec.Ring

namespace SyMPC

variable {Seed St Req Raw : Type}

/-- everything one generator returns for a sequence of requests -/
def genOuts (G : Gen Seed St Req Raw) : St → List Req → List Raw
  | _, [] => []
  | s, q :: qs => (G.next s q).1 :: genOuts G (G.next s q).2 qs

theorem genOuts_length (G : Gen Seed St Req Raw) (s : St) (qs : List Req) : (genOuts G s qs).length = qs.length := by
  induction qs generalizing s with
  | nil => rfl
  | cons q qs ih => simp [genOuts, ih]

/-- outputs of one rank -/
def outsOf {α : Type} (r : Nat) (outs : List (Nat × α)) : List α := (outs.filter (fun e => e.1 = r)).map (·.2)

theorem serve_ok (G : Gen Seed St Req Raw) (es : List (Nat × Req)) (sts : List (St × St))
    (h : ∀ e ∈ es, e.1 < sts.length) :
    ∃ outs, serve G sts es = .ok outs ∧
      ∀ r st, sts[r]? = some st →
        outsOf r outs = (genOuts G st.1 (outsOf r es)).zip (genOuts G st.2 (outsOf r es)) := by
  induction es generalizing sts with
  | nil => exact ⟨[], rfl, fun r st _ => rfl⟩
  | cons e es ih =>
    obtain ⟨r0, q⟩ := e
    have hr0 : r0 < sts.length := h (r0, q) (by simp)
    have hlen : ∀ e ∈ es, e.1 < (sts.set r0 (generateRandomShare G sts[r0] q).2).length := by
      intro e he; rw [List.length_set]; exact h e (by simp [he])
    obtain ⟨outs, h1, h2⟩ := ih _ hlen
    refine ⟨(r0, (generateRandomShare G sts[r0] q).1) :: outs, ?_, ?_⟩
    · simp only [serve, pyGet_ok hr0, ok_bind, h1, pure_eq_ok]
    · intro r st hst
      by_cases hr : r0 = r
      · subst hr
        have hst' : sts[r0] = st := by
          rw [List.getElem?_eq_getElem hr0] at hst; exact Option.some.inj hst
        have := h2 r0 (generateRandomShare G sts[r0] q).2 (by simp [hr0])
        rw [hst'] at this ⊢
        simp only [outsOf, List.filter_cons, decide_true, if_true, List.map_cons, genOuts, List.zip_cons_cons] at this ⊢
        rw [this]
        rfl
      · have := h2 r st (by rw [List.getElem?_set_ne hr]; exact hst)
        simp only [outsOf, List.filter_cons, hr, decide_false] at this ⊢
        simpa using this

/-- cyclic sums of differences vanish -/
theorem cyclic_sum_zero {R : Type} [AddCommGroup R] (f : Nat → R) (n : Nat) :
    ((List.range n).map fun r => f r - f ((r + 1) % n)).sum = 0 := by
  cases n with
  | zero => simp
  | succ n =>
    have key : ∀ m, m ≤ n → ((List.range m).map fun r => f r - f ((r + 1) % (n + 1))).sum = f 0 - f m := by
      intro m
      induction m with
      | zero => intro _; simp
      | succ m ih =>
        intro hm
        rw [List.range_succ, List.map_append, List.sum_append, ih (by omega)]
        have : (m + 1) % (n + 1) = m + 1 := Nat.mod_eq_of_lt (by omega)
        simp [this]
    rw [List.range_succ, List.map_append, List.sum_append, key n le_rfl]
    simp

end SyMPC
