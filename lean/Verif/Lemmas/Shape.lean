import Verif.Model.Shape
import Verif.Lemmas.Grad
import Mathlib.Data.List.GetD
import Mathlib.Tactic.Ring

/-!
# Lemmas about shapes
-/

namespace SyMPC.Shape

open Tensor

/-! ## Positions -/

theorem valid_iff (s i : List Nat) : ValidIdx s i ↔ List.Forall₂ (fun d i => i < d) s i := by
  induction s generalizing i with
  | nil => cases i <;> simp [ValidIdx]
  | cons d s ih => cases i <;> simp [ValidIdx, ih]

theorem valid_reverse {s i : List Nat} (h : ValidIdx s.reverse i) : ValidIdx s i.reverse := by
  rw [valid_iff] at h ⊢
  simpa using List.rel_reverse h

theorem valid_getD {s i : List Nat} (h : ValidIdx s i) (k : Nat) (hk : k < s.length) : i.getD k 0 < s.getD k 0 := by
  have hl := h.length
  rw [valid_iff] at h
  rw [List.getD_eq_getElem _ _ hk, List.getD_eq_getElem _ _ (by omega)]
  exact (List.forall₂_iff_get.mp h).2 k hk (by omega)

theorem valid_of_getD {s i : List Nat} (hl : i.length = s.length) (h : ∀ k < s.length, i.getD k 0 < s.getD k 0) : ValidIdx s i := by
  rw [valid_iff, List.forall₂_iff_get]
  refine ⟨hl.symm, fun k h1 h2 => ?_⟩
  have := h k h1
  rwa [List.getD_eq_getElem _ _ h1, List.getD_eq_getElem _ _ h2] at this

theorem getD_set' (l : List Nat) (i k v : Nat) (hi : i < l.length) : (l.set i v).getD k 0 = if k = i then v else l.getD k 0 := by
  rw [List.getD_eq_getElem?_getD, List.getD_eq_getElem?_getD, List.getElem?_set]
  by_cases h : k = i
  · rw [if_pos h, if_pos h.symm, if_pos hi, Option.getD_some]
  · rw [if_neg h, if_neg (Ne.symm h)]

theorem exchange_length (i j : Nat) (l : List Nat) : (exchange i j l).length = l.length := by simp [exchange]

theorem exchange_getD (i j k : Nat) (l : List Nat) (hi : i < l.length) (hj : j < l.length) :
    (exchange i j l).getD k 0 = if k = j then l.getD i 0 else if k = i then l.getD j 0 else l.getD k 0 := by
  unfold exchange
  rw [getD_set' _ _ _ _ (by simpa using hj), getD_set' _ _ _ _ hi]

theorem exchange_nil (i j : Nat) : exchange i j [] = [] := by simp [exchange]

theorem valid_exchange (i j : Nat) (s o : List Nat) (hi : i < s.length) (hj : j < s.length) (h : ValidIdx (exchange i j s) o) :
    ValidIdx s (exchange i j o) := by
  have hl : o.length = s.length := by rw [h.length, exchange_length]
  refine valid_of_getD (by rw [exchange_length, hl]) fun k hk => ?_
  rw [exchange_getD i j k o (by omega) (by omega)]
  by_cases c1 : k = j
  · rw [if_pos c1]
    have := valid_getD h i (by rw [exchange_length]; exact hi)
    rw [exchange_getD i j i s hi hj] at this
    subst c1
    by_cases c : i = k
    · rw [if_pos c] at this
      rw [c] at this ⊢
      exact this
    · rw [if_neg c, if_pos rfl] at this
      exact this
  · rw [if_neg c1]
    by_cases c2 : k = i
    · rw [if_pos c2]
      have := valid_getD h j (by rw [exchange_length]; exact hj)
      rw [exchange_getD i j j s hi hj, if_pos rfl] at this
      rwa [c2]
    · rw [if_neg c2]
      have := valid_getD h k (by rw [exchange_length]; exact hk)
      rwa [exchange_getD i j k s hi hj, if_neg c1, if_neg c2] at this

theorem normDim_lt {n : Nat} {d : Int} {k : Nat} (h : normDim n d = .ok k) : k < max n 1 := by
  unfold normDim at h
  dsimp only at h
  split at h
  · cases h
    omega
  · split at h
    · cases h
      omega
    · cases h

theorem valid_eraseIdx (d : Nat) (s o : List Nat) (hd : d ≤ s.length) (h : ValidIdx (s.insertIdx d 1) o) : ValidIdx s (o.eraseIdx d) := by
  induction s generalizing d o with
  | nil =>
    obtain rfl : d = 0 := by simpa using hd
    match o, h with
    | [a], _ => trivial
  | cons a s ih =>
    cases d with
    | zero =>
      match o, h with
      | _ :: o, h => exact h.2
    | succ d =>
      rw [List.insertIdx_succ_cons] at h
      match o, h with
      | b :: o, h => exact ⟨h.1, ih d o (by simpa using hd) h.2⟩

theorem valid_insertIdx (d n : Nat) (s o : List Nat) (hd : d < s.length) (hn : n < s.getD d 0) (h : ValidIdx (s.eraseIdx d) o) :
    ValidIdx s (o.insertIdx d n) := by
  induction s generalizing d o with
  | nil => simp at hd
  | cons a s ih =>
    cases d with
    | zero => exact ⟨by simpa using hn, h⟩
    | succ d =>
      match o, h with
      | b :: o, h =>
        rw [List.insertIdx_succ_cons]
        exact ⟨h.1, ih d o (by simpa using hd) (by simpa using hn) h.2⟩

theorem valid_set (d n m : Nat) (s o : List Nat) (hd : d < s.length) (hn : n < s.getD d 0) (h : ValidIdx (s.set d m) o) :
    ValidIdx s (o.set d n) := by
  induction s generalizing d o with
  | nil => simp at hd
  | cons a s ih =>
    cases d with
    | zero =>
      match o, h with
      | b :: o, h => exact ⟨by simpa using hn, h.2⟩
    | succ d =>
      match o, h with
      | b :: o, h => exact ⟨h.1, ih d o (by simpa using hd) (by simpa using hn) h.2⟩

theorem valid_spread (s o : List Nat) (h : ValidIdx (s.filter (· ≠ 1)) o) : ValidIdx s (spread s o) := by
  induction s generalizing o with
  | nil => trivial
  | cons d s ih =>
    unfold spread
    by_cases hd : d = 1
    · rw [if_pos hd]
      refine ⟨by omega, ih o ?_⟩
      rwa [List.filter_cons_of_neg (by simpa using hd)] at h
    · rw [if_neg hd]
      rw [List.filter_cons_of_pos (by simpa using hd)] at h
      match o, h with
      | a :: o, h => exact ⟨h.1, ih o h.2⟩

theorem numel_append (a b : List Nat) : Grad.numel (a ++ b) = Grad.numel a * Grad.numel b := by
  induction a with
  | nil => simp [Grad.numel]
  | cons d a ih => simp [Grad.numel, ih, Nat.mul_assoc]

theorem numel_split (n : Nat) (s : List Int) (f : Int → Nat) (hf : ∀ d ∈ s, 0 ≤ d → f d = d.toNat) (hn : ∀ d ∈ s, ¬ 0 ≤ d → d = -1)
    (hm : f (-1) = n) :
    Grad.numel (s.map f) = Grad.numel ((s.filter (0 ≤ ·)).map Int.toNat) * n ^ s.count (-1) := by
  induction s with
  | nil => simp [Grad.numel]
  | cons d s ih =>
    have ih := ih (fun d hd => hf d (List.mem_cons_of_mem _ hd)) (fun d hd => hn d (List.mem_cons_of_mem _ hd))
    by_cases h : 0 ≤ d
    · have hne : ¬ d = -1 := by omega
      rw [List.filter_cons_of_pos (by simpa using h), List.map_cons, List.map_cons, Grad.numel, Grad.numel, ih, hf d List.mem_cons_self h,
        List.count_cons_of_ne hne, Nat.mul_assoc]
    · obtain rfl := hn d List.mem_cons_self h
      rw [List.filter_cons_of_neg (by simp), List.map_cons, Grad.numel, ih, hm, List.count_cons_self, pow_succ]
      ring

/-- the sizes found by `reshape` have the right number of elements -/
theorem resolve_numel {n : Nat} {s : List Int} {r : List Nat} (h : resolve n s = .ok r) : Grad.numel r = n := by
  unfold resolve at h
  by_cases c : s.any (· < -1) = true
  · rw [if_pos c] at h
    cases h
  rw [if_neg c] at h
  have hn : ∀ d ∈ s, ¬ 0 ≤ d → d = -1 := by
    intro d hd h0
    by_contra hne
    exact c (List.any_eq_true.mpr ⟨d, hd, by simp; omega⟩)
  dsimp only at h
  generalize hK : Grad.numel ((s.filter (0 ≤ ·)).map Int.toNat) = K at h
  rcases hc : s.count (-1) with _ | _ | k
  · rw [hc] at h
    change (if K = n then Except.ok (s.map Int.toNat) else Except.error PyErr.runtimeError) = _ at h
    by_cases e : K = n
    · rw [if_pos e] at h
      cases h
      have := numel_split 0 s Int.toNat (fun _ _ _ => rfl) hn rfl
      rw [hc, pow_zero, mul_one, hK] at this
      rw [this, e]
    · rw [if_neg e] at h
      cases h
  · rw [hc] at h
    change (if K ≠ 0 ∧ K ∣ n then Except.ok (s.map fun d => if d = -1 then n / K else d.toNat) else Except.error PyErr.runtimeError) = _ at h
    by_cases e : K ≠ 0 ∧ K ∣ n
    · rw [if_pos e] at h
      cases h
      have := numel_split (n / K) s (fun d => if d = -1 then n / K else d.toNat) (fun d _ h0 => if_neg (by omega)) hn (if_pos rfl)
      rw [hc, zero_add, pow_one, hK] at this
      rw [this]
      exact Nat.mul_div_cancel' e.2
    · rw [if_neg e] at h
      cases h
  · rw [hc] at h
    cases h

theorem valid_repeat (k s o : List Nat) (hk : s.length ≤ k.length)
    (h : ValidIdx (List.zipWith (· * ·) k (List.replicate (k.length - s.length) 1 ++ s)) o) :
    ValidIdx s (List.zipWith (fun i d => i % d) (o.drop (k.length - s.length)) s) := by
  have hl : o.length = k.length := by
    rw [h.length]
    simp
    omega
  refine valid_of_getD (by simp; omega) fun j hj => ?_
  have hd : j < (o.drop (k.length - s.length)).length := by simp; omega
  rw [List.getD_eq_getElem _ _ (by simp; omega), List.getElem_zipWith, List.getD_eq_getElem _ _ hj]
  refine Nat.mod_lt _ ?_
  have := valid_getD h (k.length - s.length + j) (by simp; omega)
  rw [List.getD_eq_getElem _ _ (by omega), List.getD_eq_getElem _ _ (by simp; omega), List.getElem_zipWith,
    List.getElem_append_right (by simp)] at this
  have e : (k.length - s.length + j) - (List.replicate (k.length - s.length) 1).length = j := by simp
  simp only [e] at this
  by_contra h0
  rw [Nat.eq_zero_of_not_pos h0, Nat.mul_zero] at this
  omega

/-- torch methods read only positions that exist -/
theorem plan_valid {m : Method} {s r : List Nat} {src : List Nat → List (List Nat)} (h : m.plan s = .ok (r, src)) (o : List Nat)
    (ho : ValidIdx r o) (p : List Nat) (hp : p ∈ src o) : ValidIdx s p := by
  cases m with
  | t =>
    unfold Method.plan at h
    dsimp only at h
    match s, h with
    | [], h => cases h; simp only [List.mem_singleton] at hp; exact hp ▸ ho
    | [n], h => cases h; simp only [List.mem_singleton] at hp; exact hp ▸ ho
    | [n, k], h =>
      cases h
      simp only [List.mem_singleton] at hp
      rw [hp]
      exact valid_reverse (s := [n, k]) ho
  | T =>
    cases h
    simp only [List.mem_singleton] at hp
    exact hp ▸ valid_reverse ho
  | transpose i j =>
    unfold Method.plan at h
    dsimp only at h
    cases hi : normDim s.length i with
    | error e => rw [hi] at h; cases h
    | ok i' =>
      cases hj : normDim s.length j with
      | error e => rw [hi, ok_bind, hj] at h; cases h
      | ok j' =>
        rw [hi, ok_bind, hj, ok_bind] at h
        cases h
        simp only [List.mem_singleton] at hp
        subst hp
        have h1 := normDim_lt hi
        have h2 := normDim_lt hj
        match s, ho, h1, h2 with
        | [], ho, _, _ =>
          rw [exchange_nil] at ho
          match o, ho with
          | [], _ => rw [exchange_nil]; trivial
        | d :: s, ho, h1, h2 =>
          have e : max (d :: s).length 1 = (d :: s).length := by simp
          rw [e] at h1 h2
          exact valid_exchange i' j' _ o h1 h2 ho
  | unsqueeze d =>
    unfold Method.plan at h
    dsimp only at h
    cases hd : normDim (s.length + 1) d with
    | error e => rw [hd] at h; cases h
    | ok k =>
      rw [hd, ok_bind] at h
      cases h
      simp only [List.mem_singleton] at hp
      subst hp
      have := normDim_lt hd
      exact valid_eraseIdx k s o (by omega) ho
  | squeeze =>
    cases h
    simp only [List.mem_singleton] at hp
    exact hp ▸ valid_spread s o ho
  | reshape l =>
    unfold Method.plan at h
    dsimp only at h
    cases hd : resolve (Grad.numel s) l with
    | error e => rw [hd] at h; cases h
    | ok k =>
      rw [hd, ok_bind] at h
      cases h
      simp only [List.mem_singleton] at hp
      subst hp
      exact (Grad.unflat_valid s _ (by rw [← resolve_numel hd]; exact Grad.numel_flat_lt _ _ ho)).1
  | view l =>
    unfold Method.plan at h
    dsimp only at h
    cases hd : resolve (Grad.numel s) l with
    | error e => rw [hd] at h; cases h
    | ok k =>
      rw [hd, ok_bind] at h
      cases h
      simp only [List.mem_singleton] at hp
      subst hp
      exact (Grad.unflat_valid s _ (by rw [← resolve_numel hd]; exact Grad.numel_flat_lt _ _ ho)).1
  | flatten =>
    cases h
    simp only [List.mem_singleton] at hp
    subst hp
    exact (Grad.unflat_valid s _ (by
      have := Grad.numel_flat_lt _ _ ho
      rwa [show Grad.numel [Grad.numel s] = Grad.numel s by simp [Grad.numel]] at this)).1
  | sum =>
    cases h
    exact (mem_indices s p).mp hp
  | sumDim d keep =>
    unfold Method.plan at h
    dsimp only at h
    cases hd : normDim s.length d with
    | error e => rw [hd] at h; cases h
    | ok k =>
      rw [hd, ok_bind] at h
      have hk := normDim_lt hd
      by_cases hs : s = []
      · rw [if_pos hs] at h
        cases h
        simp only [List.mem_singleton] at hp
        rw [hs, hp]
        exact ho
      · rw [if_neg hs] at h
        have hk : k < s.length := by
          have := List.length_pos_of_ne_nil hs
          omega
        cases keep with
        | true =>
          rw [if_pos rfl] at h
          cases h
          simp only [List.mem_map, List.mem_range] at hp
          obtain ⟨i, hi, rfl⟩ := hp
          exact valid_set k i 1 s o hk hi ho
        | false =>
          rw [if_neg (by simp)] at h
          cases h
          simp only [List.mem_map, List.mem_range] at hp
          obtain ⟨i, hi, rfl⟩ := hp
          exact valid_insertIdx k i s o hk hi ho
  | narrow d start len =>
    unfold Method.plan at h
    dsimp only at h
    by_cases hs : s = []
    · rw [if_pos hs] at h
      cases h
    rw [if_neg hs] at h
    cases hd : normDim s.length d with
    | error e => rw [hd] at h; cases h
    | ok k =>
      rw [hd, ok_bind] at h
      have hk : k < s.length := by
        have := List.length_pos_of_ne_nil hs
        have := normDim_lt hd
        omega
      by_cases hc : start + len ≤ s.getD k 0
      · rw [if_pos hc] at h
        cases h
        simp only [List.mem_singleton] at hp
        subst hp
        refine valid_set k _ len s o hk ?_ ho
        have := valid_getD ho k (by simpa using hk)
        rw [getD_set' _ _ _ _ hk, if_pos rfl] at this
        omega
      · rw [if_neg hc] at h
        cases h
  | «repeat» k =>
    unfold Method.plan at h
    dsimp only at h
    by_cases hk : k.length < s.length
    · rw [if_pos hk] at h
      cases h
    rw [if_neg hk] at h
    cases h
    simp only [List.mem_singleton] at hp
    subst hp
    exact valid_repeat k s o (by omega) ho
  | clone =>
    cases h
    simp only [List.mem_singleton] at hp
    exact hp ▸ ho
  | dim => cases h

/-! ## Operations -/

section
variable {T : Type} [Add T] [Sub T] [Mul T] [Zero T]

/-- the elements of the result of an operation -/
def elem (op : BinOp) (xs ys : List Nat) (a b : List Nat → T) : List Nat → T :=
  match op with
  | .add => fun o => a (sourceIdx xs o) + b (sourceIdx ys o)
  | .sub => fun o => a (sourceIdx xs o) - b (sourceIdx ys o)
  | .mul => fun o => a (sourceIdx xs o) * b (sourceIdx ys o)
  | .matmul => match xs, ys with
    | [k], [_] => fun _ => ((List.range k).map fun l => a [l] * b [l]).sum
    | [_, k], [_] => fun o => ((List.range k).map fun l => a [o.getD 0 0, l] * b [l]).sum
    | [k], [_, _] => fun o => ((List.range k).map fun l => a [l] * b [l, o.getD 0 0]).sum
    | [_, k], [_, _] => fun o => ((List.range k).map fun l => a [o.getD 0 0, l] * b [l, o.getD 1 0]).sum
    | _, _ => fun _ => 0

theorem zip_eq {A B C : Type} (f : A → B → C) (x : Tensor A) (y : Tensor B) :
    Tensor.zip f x y = (broadcastShape x.shape y.shape).map fun s =>
      ⟨s, fun idx => f (x.at_ (sourceIdx x.shape idx)) (y.at_ (sourceIdx y.shape idx))⟩ := by
  unfold Tensor.zip
  cases broadcastShape x.shape y.shape <;> rfl

/-- the sizes of a matrix product -/
def matShape : List Nat → List Nat → Py (List Nat)
  | [k], [k'] => if k = k' then .ok [] else .error .runtimeError
  | [n, k], [k'] => if k = k' then .ok [n] else .error .runtimeError
  | [k], [k', m] => if k = k' then .ok [m] else .error .runtimeError
  | [n, k], [k', m] => if k = k' then .ok [n, m] else .error .runtimeError
  | _, _ => .error .runtimeError

theorem matmul_eq {S : Type} [Add S] [Mul S] [Zero S] (x y : Tensor S) :
    ∃ f, Grad.matmul x y = (matShape x.shape y.shape).map fun s => ⟨s, f⟩ := by
  obtain ⟨xs, a⟩ := x
  obtain ⟨ys, b⟩ := y
  unfold Grad.matmul
  dsimp only
  match xs, ys with
  | [k], [k'] => by_cases h : k = k' <;> simp [matShape, h, Except.map]
  | [n, k], [k'] => by_cases h : k = k' <;> simp [matShape, h, Except.map]
  | [k], [k', m] => by_cases h : k = k' <;> simp [matShape, h, Except.map]
  | [n, k], [k', m] => by_cases h : k = k' <;> simp [matShape, h, Except.map]
  | [], _ => exact ⟨fun _ => 0, rfl⟩
  | [_], [] => exact ⟨fun _ => 0, rfl⟩
  | [_], _ :: _ :: _ :: _ => exact ⟨fun _ => 0, rfl⟩
  | [_, _], [] => exact ⟨fun _ => 0, rfl⟩
  | [_, _], _ :: _ :: _ :: _ => exact ⟨fun _ => 0, rfl⟩
  | _ :: _ :: _ :: _, _ => exact ⟨fun _ => 0, rfl⟩

theorem shape_eq (op : BinOp) (xs ys : List Nat) :
    op.shape xs ys = match op with | .matmul => matShape xs ys | _ => broadcastShape xs ys := by
  cases op with
  | matmul =>
    obtain ⟨f, hf⟩ := matmul_eq (⟨xs, fun _ => 0⟩ : Tensor Int) ⟨ys, fun _ => 0⟩
    unfold BinOp.shape BinOp.run
    dsimp only at hf ⊢
    rw [hf]
    cases matShape xs ys <;> rfl
  | _ =>
    unfold BinOp.shape BinOp.run
    dsimp only
    rw [zip_eq]
    dsimp only
    cases broadcastShape xs ys <;> rfl

/-- an operation on torch tensors: the shape does not depend on the elements -/
theorem run_eq (op : BinOp) (x y : Tensor T) :
    op.run x y = (op.shape x.shape y.shape).map fun s => ⟨s, elem op x.shape y.shape x.at_ y.at_⟩ := by
  rw [shape_eq]
  obtain ⟨xs, a⟩ := x
  obtain ⟨ys, b⟩ := y
  cases op with
  | matmul =>
    dsimp only [BinOp.run]
    unfold Grad.matmul
    dsimp only
    match xs, ys with
    | [k], [k'] => by_cases h : k = k' <;> simp [matShape, elem, h, Except.map]
    | [n, k], [k'] => by_cases h : k = k' <;> simp [matShape, elem, h, Except.map]
    | [k], [k', m] => by_cases h : k = k' <;> simp [matShape, elem, h, Except.map]
    | [n, k], [k', m] => by_cases h : k = k' <;> simp [matShape, elem, h, Except.map]
    | [], _ => rfl
    | [_], [] => rfl
    | [_], _ :: _ :: _ :: _ => rfl
    | [_, _], [] => rfl
    | [_, _], _ :: _ :: _ :: _ => rfl
    | _ :: _ :: _ :: _, _ => rfl
  | _ => exact zip_eq _ _ _

theorem run_ok (op : BinOp) (x y : Tensor T) (z : List Nat) (h : op.shape x.shape y.shape = .ok z) :
    op.run x y = .ok ⟨z, elem op x.shape y.shape x.at_ y.at_⟩ := by
  rw [run_eq, h]
  rfl

theorem run_error (op : BinOp) (x y : Tensor T) (e : PyErr) (h : op.shape x.shape y.shape = .error e) : op.run x y = .error e := by
  rw [run_eq, h]
  rfl

theorem broadcast_of_shape {op : BinOp} {xs ys z : List Nat} (hop : op ≠ .matmul) (h : op.shape xs ys = .ok z) :
    Broadcasts xs z ∧ Broadcasts ys z := by
  rw [shape_eq] at h
  refine broadcastShape_ok xs ys z ?_
  cases op <;> first | exact h | exact absurd rfl hop

omit [Sub T] [Mul T] in
theorem list_sum_congr {A : Type} (l : List A) (f g : A → T) (h : ∀ x ∈ l, f x = g x) : (l.map f).sum = (l.map g).sum := by
  rw [List.map_congr_left h]

/-- only the elements at positions matter -/
theorem elem_congr {op : BinOp} {xs ys z : List Nat} (h : op.shape xs ys = .ok z) {a a' b b' : List Nat → T}
    (ha : ∀ i, ValidIdx xs i → a i = a' i) (hb : ∀ i, ValidIdx ys i → b i = b' i) (o : List Nat) (ho : ValidIdx z o) :
    elem op xs ys a b o = elem op xs ys a' b' o := by
  have hzip : op ≠ .matmul → a (sourceIdx xs o) = a' (sourceIdx xs o) ∧ b (sourceIdx ys o) = b' (sourceIdx ys o) := by
    intro hop
    obtain ⟨h1, h2⟩ := broadcast_of_shape hop h
    exact ⟨ha _ (sourceIdx_valid _ _ _ h1 ho), hb _ (sourceIdx_valid _ _ _ h2 ho)⟩
  cases op with
  | matmul =>
    rw [shape_eq] at h
    dsimp only at h
    unfold elem
    dsimp only
    match xs, ys, h with
    | [k], [k'], h =>
      by_cases e : k = k'
      · subst e
        refine list_sum_congr _ _ _ fun l hl => ?_
        have hl := List.mem_range.mp hl
        rw [ha [l] ⟨hl, trivial⟩, hb [l] ⟨hl, trivial⟩]
      · simp [matShape, e] at h
    | [n, k], [k'], h =>
      by_cases e : k = k'
      · subst e
        simp only [matShape, if_true, Except.ok.injEq] at h
        subst h
        match o, ho with
        | [i], ho =>
          refine list_sum_congr _ _ _ fun l hl => ?_
          have hl := List.mem_range.mp hl
          rw [hb [l] ⟨hl, trivial⟩]
          exact congrArg (· * _) (ha [i, l] ⟨ho.1, hl, trivial⟩)
      · simp [matShape, e] at h
    | [k], [k', m], h =>
      by_cases e : k = k'
      · subst e
        simp only [matShape, if_true, Except.ok.injEq] at h
        subst h
        match o, ho with
        | [i], ho =>
          refine list_sum_congr _ _ _ fun l hl => ?_
          have hl := List.mem_range.mp hl
          rw [ha [l] ⟨hl, trivial⟩]
          exact congrArg (_ * ·) (hb [l, i] ⟨hl, ho.1, trivial⟩)
      · simp [matShape, e] at h
    | [n, k], [k', m], h =>
      by_cases e : k = k'
      · subst e
        simp only [matShape, if_true, Except.ok.injEq] at h
        subst h
        match o, ho with
        | [i, j], ho =>
          refine list_sum_congr _ _ _ fun l hl => ?_
          have hl := List.mem_range.mp hl
          exact congrArg₂ (· * ·) (ha [i, l] ⟨ho.1, hl, trivial⟩) (hb [l, j] ⟨hl, ho.2.1, trivial⟩)
      · simp [matShape, e] at h
    | [], _, _ => rfl
    | [_], [], _ => rfl
    | [_], _ :: _ :: _ :: _, _ => rfl
    | [_, _], [], _ => rfl
    | [_, _], _ :: _ :: _ :: _, _ => rfl
    | _ :: _ :: _ :: _, _, _ => rfl
  | _ =>
    obtain ⟨e1, e2⟩ := hzip (by decide)
    simp only [elem, e1, e2]

end

section
variable {T : Type} [CommRing T]

/-- the products are linear in the left operand -/
theorem elem_add_left {op : BinOp} (hop : op = .mul ∨ op = .matmul) (xs ys : List Nat) (a a' b : List Nat → T) (o : List Nat) :
    elem op xs ys (fun i => a i + a' i) b o = elem op xs ys a b o + elem op xs ys a' b o := by
  rcases hop with rfl | rfl
  · exact add_mul _ _ _
  · unfold elem
    dsimp only
    split <;> simp only [add_mul, List.sum_map_add, add_zero]

/-- the products are linear in the right operand -/
theorem elem_add_right {op : BinOp} (hop : op = .mul ∨ op = .matmul) (xs ys : List Nat) (a b b' : List Nat → T) (o : List Nat) :
    elem op xs ys a (fun i => b i + b' i) o = elem op xs ys a b o + elem op xs ys a b' o := by
  rcases hop with rfl | rfl
  · exact mul_add _ _ _
  · unfold elem
    dsimp only
    split <;> simp only [mul_add, List.sum_map_add, add_zero]

theorem elem_sum_left {op : BinOp} (hop : op = .mul ∨ op = .matmul) (xs ys : List Nat) {A : Type} (l : List A) (f : A → List Nat → T)
    (b : List Nat → T) (o : List Nat) :
    elem op xs ys (fun i => (l.map fun s => f s i).sum) b o = (l.map fun s => elem op xs ys (f s) b o).sum := by
  have h0 : elem op xs ys (fun _ => (0 : T)) b o = 0 := by
    have := elem_add_left hop xs ys (fun _ => (0 : T)) (fun _ => 0) b o
    simpa using this
  induction l with
  | nil => simpa using h0
  | cons s l ih =>
    simp only [List.map_cons, List.sum_cons]
    rw [elem_add_left hop, ih]

theorem elem_sum_right {op : BinOp} (hop : op = .mul ∨ op = .matmul) (xs ys : List Nat) {A : Type} (l : List A) (f : A → List Nat → T)
    (a : List Nat → T) (o : List Nat) :
    elem op xs ys a (fun i => (l.map fun s => f s i).sum) o = (l.map fun s => elem op xs ys a (f s) o).sum := by
  have h0 : elem op xs ys a (fun _ => (0 : T)) o = 0 := by
    have := elem_add_right hop xs ys a (fun _ => (0 : T)) (fun _ => 0) o
    simpa using this
  induction l with
  | nil => simpa using h0
  | cons s l ih =>
    simp only [List.map_cons, List.sum_cons]
    rw [elem_add_right hop, ih]

/-! ## Lists of shares -/

/-- running a computation for each party -/
theorem mapM_shares {P : Type} (l : List P) (F : P → Py (Tensor T)) (z : List Nat) (g : P → List Nat → T)
    (h : ∀ p ∈ l, ∃ r, F p = .ok r ∧ r.shape = z ∧ ∀ o, ValidIdx z o → r.at_ o = g p o) :
    ∃ l', l.mapM F = .ok l' ∧ l'.length = l.length ∧ (∀ s ∈ l', s.shape = z) ∧
      ∀ o, ValidIdx z o → (l'.map (·.at_ o)).sum = (l.map (g · o)).sum := by
  induction l with
  | nil => exact ⟨[], rfl, rfl, by simp, by simp⟩
  | cons p l ih =>
    obtain ⟨r, h1, h2, h3⟩ := h p List.mem_cons_self
    obtain ⟨l', i1, i2, i3, i4⟩ := ih fun q hq => h q (List.mem_cons_of_mem _ hq)
    refine ⟨r :: l', ?_, by simp [i2], ?_, ?_⟩
    · rw [List.mapM_cons, h1, ok_bind, i1, ok_bind]
      rfl
    · intro s hs
      rcases List.mem_cons.mp hs with rfl | hs
      · exact h2
      · exact i3 s hs
    · intro o ho
      simp only [List.map_cons, List.sum_cons]
      rw [h3 o ho, i4 o ho]

/-- the sum that torch computes when the first share is the larger one -/
theorem sumShares_wide (s : Tensor T) (l : List (Tensor T)) (w : List Nat) (hw : Broadcasts w s.shape) (hl : ∀ u ∈ l, u.shape = w) :
    ∃ r, sumShares (s :: l) = .ok r ∧ r.shape = s.shape ∧
      ∀ o, ValidIdx s.shape o → r.at_ o = s.at_ o + (l.map (·.at_ (sourceIdx w o))).sum := by
  unfold sumShares
  dsimp only
  induction l generalizing s with
  | nil => exact ⟨s, rfl, rfl, by simp⟩
  | cons u l ih =>
    have hu := hl u List.mem_cons_self
    obtain ⟨r, h1, h2, h3⟩ := Grad.zip_wide (· + ·) s u (by rw [hu]; exact hw)
    obtain ⟨q, i1, i2, i3⟩ := ih r (h2 ▸ hw) fun v hv => hl v (List.mem_cons_of_mem _ hv)
    refine ⟨q, ?_, i2.trans h2, fun o ho => ?_⟩
    · rw [List.foldlM_cons, h1, ok_bind]
      exact i1
    · rw [i3 o (h2 ▸ ho), h3 o ho, List.map_cons, List.sum_cons, hu, add_assoc]

theorem sum_zip_add {A B : Type} (l : List A) (m : List B) (h : l.length = m.length) (f : A → T) (g : B → T) :
    ((l.zip m).map fun p => f p.1 + g p.2).sum = (l.map f).sum + (m.map g).sum := by
  induction l generalizing m with
  | nil =>
    obtain rfl : m = [] := List.length_eq_zero_iff.mp h.symm
    simp
  | cons a l ih =>
    match m, h with
    | b :: m, h =>
      simp only [List.zip_cons_cons, List.map_cons, List.sum_cons]
      rw [ih m (by simpa using h)]
      ring

theorem sum_zip_sub {A B : Type} (l : List A) (m : List B) (h : l.length = m.length) (f : A → T) (g : B → T) :
    ((l.zip m).map fun p => f p.1 - g p.2).sum = (l.map f).sum - (m.map g).sum := by
  induction l generalizing m with
  | nil =>
    obtain rfl : m = [] := List.length_eq_zero_iff.mp h.symm
    simp
  | cons a l ih =>
    match m, h with
    | b :: m, h =>
      simp only [List.zip_cons_cons, List.map_cons, List.sum_cons]
      rw [ih m (by simpa using h)]
      ring

/-- exchanging two sums -/
theorem sum_exchange {A B : Type} (l : List A) (m : List B) (f : A → B → T) :
    (l.map fun a => (m.map fun b => f a b).sum).sum = (m.map fun b => (l.map fun a => f a b).sum).sum := by
  induction l with
  | nil => simp
  | cons a l ih =>
    simp only [List.map_cons, List.sum_cons]
    rw [ih, List.sum_map_add]

end

end SyMPC.Shape
