import Verif.Lemmas.Spdz
import Verif.Spec.Fss

namespace SyMPC

variable {Key : Type} {n : Nat}

namespace FssStore

theorem stack_ensure (s : FssStore Key) (op : FssOp) : s.ensure.stack op = s.stack op := by
  simp [stack, ensure]

theorem stack_set (s : FssStore Key) (op o : FssOp) (l : List (List Key)) :
    (s.set op l).stack o = if o = op then l else s.stack o := by
  unfold stack ensure set
  split <;> simp

/-- what adding does to a stack of batches -/
def push {α : Type} (b : List (List α)) (keys : List α) : List (List α) :=
  match b with
  | [] => [keys]
  | [] :: _ => [keys]
  | cur => cur ++ [keys]

theorem push_map {α β : Type} (f : α → β) (b : List (List α)) (keys : List α) :
    push (b.map (List.map f)) (keys.map f) = (push b keys).map (List.map f) := by
  match b with
  | [] => rfl
  | [] :: _ => rfl
  | (a :: l) :: rest => simp [push]

theorem push_ne_nil {α : Type} (b : List (List α)) (keys : List α) : push b keys ≠ [] := by
  match b with
  | [] => simp [push]
  | [] :: _ => simp [push]
  | (a :: l) :: rest => simp [push]

theorem stack_add (s : FssStore Key) (op o : FssOp) (p : List Key) :
    (s.add op p).stack o = if o = op then push (s.stack op) p else s.stack o := by
  unfold add push
  split <;> rename_i h <;> simp only [h, stack_set, stack_ensure]

theorem get_ok (s : FssStore Key) (op : FssOp) (nr : Nat) (remove : Bool) (b : List Key) (rest : List (List Key))
    (h : s.stack op = b :: rest) (hn : nr ≤ b.length) :
    s.get op nr remove = (.ok (b.take nr), if remove then s.ensure.set op rest else s.ensure) := by
  simp [get, h, hn]

theorem get_short (s : FssStore Key) (op : FssOp) (nr : Nat) (remove : Bool) (b : List Key) (rest : List (List Key))
    (h : s.stack op = b :: rest) (hn : ¬ nr ≤ b.length) : s.get op nr remove = (.error .valueError, s.ensure) := by
  simp [get, h, hn]

end FssStore

/-- the batches of pairs of keys that the stores of the two parties hold, in one world -/
structure FssWorld.Holds (w : FssWorld Key) (s : Session) (B : FssOp → List (List (Key × Key))) : Prop where
  first : ∀ p, s.sessionPtrs[0]? = some p → ∀ op, (w p.uuid).stack op = (B op).map (List.map (·.1))
  second : ∀ p, s.sessionPtrs[1]? = some p → ∀ op, (w p.uuid).stack op = (B op).map (List.map (·.2))

theorem holds_empty (s : Session) : (FssWorld.empty : FssWorld Key).Holds s (fun _ => [[]]) :=
  ⟨fun _ _ _ => rfl, fun _ _ _ => rfl⟩

/-- the shape of a two-party session -/
theorem pair_ptrs {env : Env} {s : Session} (hs : s.Pair env) :
    ∃ p0 p1, s.sessionPtrs = [p0, p1] ∧ s.rankToUuid = [p0.uuid, p1.uuid] ∧ p0.uuid ≠ p1.uuid ∧
      env p0.uuid = some p0 ∧ env p1.uuid = some p1 ∧ p0.config = s.config ∧ p1.config = s.config := by
  have hl : s.sessionPtrs.length = 2 := by
    rw [← hs.pair, ← hs.ranks, ← hs.pointers, List.length_map]
  obtain ⟨p0, p1, hp⟩ : ∃ p0 p1, s.sessionPtrs = [p0, p1] := by
    match s.sessionPtrs, hl with
    | [a, b], _ => exact ⟨a, b, rfl⟩
  have hr : s.rankToUuid = [p0.uuid, p1.uuid] := by rw [← hs.pointers, hp]; rfl
  have hd := hs.distinct
  rw [hr] at hd
  have e0 := hs.objects p0 (by simp [hp])
  have e1 := hs.objects p1 (by simp [hp])
  refine ⟨p0, p1, hp, hr, by simpa using hd, e0, e1, ?_, ?_⟩
  · obtain ⟨p, h1, h2, _⟩ := hs.known p0.uuid (by simp [hr])
    rw [e0] at h1
    cases h1
    exact h2
  · obtain ⟨p, h1, h2, _⟩ := hs.known p1.uuid (by simp [hr])
    rw [e1] at h1
    cases h1
    exact h2

/-- the stores after `generate_primitives` -/
theorem fssGenerate_holds {env : Env} {s : Session} (hs : s.Pair env) (op : FssOp) (keys : List (Key × Key)) (w : FssWorld Key)
    (B : FssOp → List (List (Key × Key))) (hw : w.Holds s B) :
    ∃ w', fssGenerate s op keys w = .ok w' ∧
      w'.Holds s (fun o => if o = op then FssStore.push (B op) keys else B o) := by
  obtain ⟨p0, p1, hp, _, hne, _, _⟩ := pair_ptrs hs
  refine ⟨_, by simp only [fssGenerate, hp]; rfl, ?_⟩
  have h0 := hw.first p0 (by simp [hp])
  have h1 := hw.second p1 (by simp [hp])
  constructor
  · intro p h o
    simp only [hp, List.getElem?_cons_zero, Option.some.injEq] at h
    subst h
    simp only [List.zip_cons_cons, List.zip_nil_right, List.foldl_cons, List.foldl_nil, FssWorld.set, if_true, if_neg hne]
    rw [FssStore.stack_add]
    split
    · subst o
      rw [h0, FssStore.push_map]
    · rw [h0]
  · intro p h o
    simp only [hp, List.getElem?_cons_succ, List.getElem?_cons_zero, Option.some.injEq] at h
    subst h
    simp only [List.zip_cons_cons, List.zip_nil_right, List.foldl_cons, List.foldl_nil, FssWorld.set, if_true,
      if_neg (Ne.symm hne)]
    rw [FssStore.stack_add]
    split
    · subst o
      rw [h1, FssStore.push_map]
    · rw [h1]

theorem pair_shares {T : Type} {env : Env} {x : MPCTensor T} (hs : x.session.Pair env) (hx : x.WF env) :
    ∃ a b, x.shares = [a, b] := by
  have hlx : x.shares.length = 2 := by
    have := congrArg List.length hx.tags
    rw [← hs.pair, ← hs.ranks]
    simpa using this
  match h : x.shares, hlx with
  | [sa, sb], _ => exact ⟨sa, sb, rfl⟩

/-- what the two parties' outputs on one element encode to -/
def outEnc (c : Config) (o : Int) : I64 := c.encoder.encode (.long (BitVec.ofInt 64 o))

theorem alphaShare_take (S : Sycret Key) (b : List Key) (h : n ≤ b.length) (i : Fin n) :
    alphaShare S (b.take n) i = (S.alpha (b[i.val]'(by omega))).setWidth 64 := by
  unfold alphaShare
  have : (b.take n)[i.val]? = some (b[i.val]'(by omega)) := by
    rw [List.getElem?_take, if_pos i.2, List.getElem?_eq_getElem]
  rw [this]

theorem evalTensor_take (S : Sycret Key) (op : FssOp) (r : Nat) (m : Fin n → I64) (b : List Key) (h : n ≤ b.length) (i : Fin n) :
    evalTensor S op r m (b.take n) i = BitVec.ofInt 64 (toInt32 (S.eval op r (m i) (b[i.val]'(by omega)))) := by
  unfold evalTensor
  have : (b.take n)[i.val]? = some (b[i.val]'(by omega)) := by
    rw [List.getElem?_take, if_pos i.2, List.getElem?_eq_getElem]
  rw [this]

theorem share_sub_tagged {T : Type} [Sub T] (env : Env) (x y : ShareTensor T) (u : Nat) (p : PartySession)
    (hx : x.sessionUuid = some u) (hy : y.sessionUuid = some u) (hp : env u = some p) :
    ShareTensor.sub (P := Empty) env x (.inr y) = .ok ⟨x.tensor - y.tensor, some u, p.config, p.ringSize⟩ := by
  simp [ShareTensor.sub, ShareTensor.sanityChecks, ShareTensor.applyFunction, hx, hy, hp, ok_bind]

/-- what a comparison delivers, given the batch `b` of pairs of keys it draws on -/
structure FssDone (S : Sycret Key) (op : FssOp) (x y : MPCTensor (Fin n → I64)) (b : List (Key × Key)) (out : FssOut Key n) : Prop where
  enough : n ≤ b.length
  session : out.result.session = x.session
  opened : ∀ i : Fin n, out.opened i = pymod (x.value i - y.value i
    + ((S.alpha (b[i.val]'(by omega)).1).setWidth 64 + (S.alpha (b[i.val]'(by omega)).2).setWidth 64)) (2 ^ 32)
  value : ∀ i : Fin n, out.result.value i
    = outEnc x.session.config (toInt32 (S.eval op 0 (out.opened i) (b[i.val]'(by omega)).1))
      + outEnc x.session.config (toInt32 (S.eval op 1 (out.opened i) (b[i.val]'(by omega)).2))
  shares : out.result.shares.map (·.tensor)
    = [fun i => outEnc x.session.config (toInt32 (S.eval op 0 (out.opened i) (b[i.val]'(by omega)).1)),
      fun i => outEnc x.session.config (toInt32 (S.eval op 1 (out.opened i) (b[i.val]'(by omega)).2))]
  maskKeys : out.maskKeys = [(b.take n).map (·.1), (b.take n).map (·.2)]
  evalKeys : out.evalKeys = [(b.take n).map (·.1), (b.take n).map (·.2)]

/-- the part after the masking step, when both stores have the keys -/
theorem fssFinish_ok (S : Sycret Key) (s : Session) (op : FssOp) (p0 p1 : PartySession) (hp : s.sessionPtrs = [p0, p1])
    (hptr : s.sessionPtrs ≠ []) (hpar : s.parties.length = 2) (hne : p0.uuid ≠ p1.uuid) (w : FssWorld Key)
    (m0 m1 : ShareTensor (Fin n → I64)) (k0 k1 : List Key) (st0 st1 : FssStore Key)
    (h0 : (w p0.uuid).get op n true = (.ok k0, st0)) (h1 : (w p1.uuid).get op n true = (.ok k1, st1)) :
    ∃ w', fssFinish S s op [(m0, k0), (m1, k1)] w = (.ok ⟨⟨s,
      [⟨fun i => p0.config.encoder.encode (.long (evalTensor S op 0 (fun i => pymod (m0.tensor i + m1.tensor i) (2 ^ 32)) k0 i)),
          some p0.uuid, p0.config, 2 ^ 64⟩,
        ⟨fun i => p1.config.encoder.encode (.long (evalTensor S op 1 (fun i => pymod (m0.tensor i + m1.tensor i) (2 ^ 32)) k1 i)),
          some p1.uuid, p1.config, 2 ^ 64⟩]⟩, fun i => pymod (m0.tensor i + m1.tensor i) (2 ^ 32), [k0, k1], [k0, k1]⟩, w') ∧
      w' p0.uuid = st0 ∧ w' p1.uuid = st1 := by
  refine ⟨(w.set p0.uuid st0).set p1.uuid st1, ?_, by simp [FssWorld.set, hne], by simp [FssWorld.set]⟩
  unfold fssFinish
  have ho : openMask s ([(m0, k0), (m1, k1)].map (·.1)) = .ok (fun i => pymod (m0.tensor i + m1.tensor i) (2 ^ 32)) := by
    unfold openMask
    rw [ofShares_ok _ _ hptr (by simp), ok_bind]
    simp [MPCTensor.reconstruct, reconstruct_eq_sum, ok_bind, pure_eq_ok]
  rw [ho]
  dsimp only
  unfold evalBoth
  rw [hp]
  dsimp only
  rw [if_neg (by omega)]
  unfold fssEvaluate
  rw [h0]
  dsimp only
  have e1 : (w.set p0.uuid st0) p1.uuid = w p1.uuid := by simp [FssWorld.set, Ne.symm hne]
  rw [e1, h1]
  simp only [Except.map, ok_bind, pure_eq_ok, List.map_cons, List.map_nil]
  rw [ofShares_ok _ _ hptr (by simp)]
  rfl

/-- one comparison, from stores that hold batches of pairs -/
theorem fssOp_spec (S : Sycret Key) {env : Env} (op : FssOp) (keys : List (Key × Key)) (x y : MPCTensor (Fin n → I64))
    (hs : x.session.Pair env) (hxy : y.session = x.session) (hx : x.WF env) (hy : y.WF env) (w : FssWorld Key)
    (B : FssOp → List (List (Key × Key))) (hw : w.Holds x.session B) (b : List (Key × Key)) (rest : List (List (Key × Key)))
    (hb : FssStore.push (B op) keys = b :: rest) :
    (n ≤ b.length → ∃ out w', fssOp S env op keys x y w = (.ok out, w') ∧ out.result.WF env ∧ FssDone S op x y b out ∧
      w'.Holds x.session (fun o => if o = op then rest else B o)) ∧
    (b.length < n → ∃ w', fssOp S env op keys x y w = (.error .valueError, w') ∧
      w'.Holds x.session (fun o => if o = op then b :: rest else B o)) := by
  obtain ⟨w1, hg, hw1⟩ := fssGenerate_holds hs op keys w B hw
  obtain ⟨p0, p1, hp, hr, hne, he0, he1, hc0, hc1⟩ := pair_ptrs hs
  obtain ⟨x0, x1, hxs⟩ := pair_shares hs hx
  obtain ⟨y0, y1, hys⟩ := pair_shares (hxy ▸ hs) hy
  have tx := hx.tags
  have ty := hy.tags
  rw [hxy] at ty
  simp only [hxs, hys, hr, List.map_cons, List.map_nil, List.cons.injEq, and_true] at tx ty
  have f0 := hw1.first p0 (by simp [hp]) op
  have f1 := hw1.second p1 (by simp [hp]) op
  simp only [if_true, hb, List.map_cons] at f0 f1
  have hpar : x.session.parties.length = 2 := by rw [hs.parties, hs.pair]
  have s0 := share_sub_tagged env x0 y0 p0.uuid p0 tx.1 ty.1 he0
  have s1 := share_sub_tagged env x1 y1 p1.uuid p1 tx.2 ty.2 he1
  constructor
  · intro hn
    have g0 : ∀ rm, (w1 p0.uuid).get op n rm = _ := fun rm =>
      FssStore.get_ok _ op n rm _ _ f0 (by simpa using hn)
    have g1 : ∀ rm, (w1 p1.uuid).get op n rm = _ := fun rm =>
      FssStore.get_ok _ op n rm _ _ f1 (by simpa using hn)
    have hm : maskAllFss S env w1 op x y = .ok
        [(⟨x0.tensor - y0.tensor + alphaShare S ((b.map (·.1)).take n), some p0.uuid, p0.config, p0.ringSize⟩, (b.map (·.1)).take n),
         (⟨x1.tensor - y1.tensor + alphaShare S ((b.map (·.2)).take n), some p1.uuid, p1.config, p1.ringSize⟩, (b.map (·.2)).take n)] := by
      unfold maskAllFss
      simp only [hp, hxs, hys, hpar, List.zip_cons_cons, List.zip_nil_right, List.isEmpty_cons, List.length_cons, List.length_nil,
        if_neg (show ¬ (false = true) by decide), if_neg (show ¬ (2 < 0 + 1 + 1) by decide), List.mapM_cons, List.mapM_nil, maskBuilder,
        s0, s1, g0, g1, ok_bind, pure_eq_ok]
    obtain ⟨w', hf, h0, h1⟩ := fssFinish_ok S x.session op p0 p1 hp hs.ptrs hpar hne w1
      ⟨x0.tensor - y0.tensor + alphaShare S ((b.map (·.1)).take n), some p0.uuid, p0.config, p0.ringSize⟩
      ⟨x1.tensor - y1.tensor + alphaShare S ((b.map (·.2)).take n), some p1.uuid, p1.config, p1.ringSize⟩
      ((b.map (·.1)).take n) ((b.map (·.2)).take n) _ _ (g0 true) (g1 true)
    have hfs : fssOp S env op keys x y w = _ := (by unfold fssOp; rw [hg]; simp only [hm] : fssOp S env op keys x y w = _).trans hf
    refine ⟨_, w', hfs, ⟨hx.ready, by rw [hr]; rfl⟩, ⟨hn, rfl, ?_, ?_, ?_, ?_, ?_⟩, ?_, ?_⟩
    · intro i
      simp only [Pi.add_apply, Pi.sub_apply, alphaShare_take S (b.map (·.1)) (by simpa using hn) i,
        alphaShare_take S (b.map (·.2)) (by simpa using hn) i, List.getElem_map, MPCTensor.value, hxs, hys, List.map_cons, List.map_nil,
        List.sum_cons, List.sum_nil, add_zero]
      congr 1
      abel
    · intro i
      simp only [MPCTensor.value, List.map_cons, List.map_nil, List.sum_cons, List.sum_nil, add_zero, Pi.add_apply,
        evalTensor_take S op _ _ (b.map (·.1)) (by simpa using hn) i, evalTensor_take S op _ _ (b.map (·.2)) (by simpa using hn) i,
        List.getElem_map, hc0, hc1, outEnc]
    · simp only [List.map_cons, List.map_nil, List.cons.injEq, and_true]
      constructor <;> funext i
      · simp only [evalTensor_take S op _ _ (b.map (·.1)) (by simpa using hn) i, List.getElem_map, hc0, outEnc]
      · simp only [evalTensor_take S op _ _ (b.map (·.2)) (by simpa using hn) i, List.getElem_map, hc1, outEnc]
    · simp
    · simp
    · intro p h o
      simp only [hp, List.getElem?_cons_zero, Option.some.injEq] at h
      subst h
      rw [h0, if_pos rfl, FssStore.stack_set, FssStore.stack_ensure]
      have := hw1.first p0 (by simp [hp]) o
      by_cases ho : o = op
      · simp [ho]
      · simpa [ho] using this
    · intro p h o
      simp only [hp, List.getElem?_cons_succ, List.getElem?_cons_zero, Option.some.injEq] at h
      subst h
      rw [h1, if_pos rfl, FssStore.stack_set, FssStore.stack_ensure]
      have := hw1.second p1 (by simp [hp]) o
      by_cases ho : o = op
      · simp [ho]
      · simpa [ho] using this
  · intro hn
    have g0 : ∀ rm, (w1 p0.uuid).get op n rm = _ := fun rm =>
      FssStore.get_short _ op n rm _ _ f0 (by simpa using hn)
    refine ⟨w1, ?_, ?_⟩
    · unfold fssOp
      rw [hg]
      have : maskAllFss S env w1 op x y = .error .valueError := by
        unfold maskAllFss
        simp only [hp, hxs, hys, hpar, List.zip_cons_cons, List.zip_nil_right, List.isEmpty_cons, List.length_cons, List.length_nil,
          if_neg (show ¬ (false = true) by decide), if_neg (show ¬ (2 < 0 + 1 + 1) by decide), List.mapM_cons, List.mapM_nil, maskBuilder,
          s0, g0, ok_bind, error_bind]
      simp only [this]
    · simpa only [hb] using hw1

/-! ## Arithmetic -/

theorem toInt32_bounds (z : Int) : -2 ^ 31 ≤ toInt32 z ∧ toInt32 z < 2 ^ 31 := by
  unfold toInt32
  have h1 := Int.le_bmod (x := z) (m := 2 ^ 32) (by decide)
  have h2 := Int.bmod_lt (x := z) (m := 2 ^ 32) (by decide)
  omega

theorem toInt32_modEq (z : Int) : toInt32 z ≡ z [ZMOD 2 ^ 32] := by
  unfold toInt32 Int.ModEq
  have := Int.bmod_emod (x := z) (m := 2 ^ 32)
  exact_mod_cast this

/-- outputs that add up to a bit modulo `2^32` add up to that bit -/
theorem outputs_sum (e0 e1 v : Int) (hv : v = 0 ∨ v = 1) (h : e0 + e1 ≡ v [ZMOD 2 ^ 32]) (h0 : toInt32 e0 ≠ -2 ^ 31)
    (h1 : toInt32 e1 ≠ -2 ^ 31) : toInt32 e0 + toInt32 e1 = v := by
  have b0 := toInt32_bounds e0
  have b1 := toInt32_bounds e1
  have hm : toInt32 e0 + toInt32 e1 ≡ v [ZMOD 2 ^ 32] := ((toInt32_modEq e0).add (toInt32_modEq e1)).trans h
  obtain ⟨k, hk⟩ := hm.dvd
  rcases hv with rfl | rfl <;> omega

theorem outEnc_add (c : Config) (o0 o1 : Int) :
    outEnc c o0 + outEnc c o1 = c.encoder.encode (.long (BitVec.ofInt 64 (o0 + o1))) := by
  have key : ∀ z : Int, c.encoder.encode (.long (BitVec.ofInt 64 z)) = BitVec.ofInt 64 (z * c.encoder.scale) := by
    intro z
    unfold FixedPointEncoder.encode FixedPointEncoder.encodeInt
    apply BitVec.eq_of_toInt_eq
    simp only [BitVec.toInt_ofInt]
    exact Int.bmod_mul_bmod
  unfold outEnc
  rw [key, key, key, add_mul, BitVec.ofInt_add]

theorem toInt_pymod32 (z : I64) : (pymod z (2 ^ 32)).toInt = z.toInt % 2 ^ 32 := by
  unfold pymod
  rw [BitVec.toInt_smod]
  have : (2 ^ 32 : I64).toInt = 2 ^ 32 := by decide
  rw [this, Int.fmod_eq_emod_of_nonneg _ (by decide)]

theorem setWidth_pymod32 (z : I64) : (pymod z (2 ^ 32)).setWidth 32 = z.setWidth 32 := by
  apply BitVec.eq_of_toNat_eq
  have h := toInt_pymod32 z
  rw [BitVec.toNat_setWidth, BitVec.toNat_setWidth]
  rw [BitVec.toInt_eq_toNat_bmod, BitVec.toInt_eq_toNat_bmod] at h
  have e1 := Int.bmod_emod (x := ((pymod z (2 ^ 32)).toNat : Int)) (m := 2 ^ 64)
  have e2 := Int.bmod_emod (x := (z.toNat : Int)) (m := 2 ^ 64)
  omega

/-- the opened value as a 32 bit number -/
theorem opened32 (d : I64) (a b : BitVec 32) :
    (pymod (d + (a.setWidth 64 + b.setWidth 64)) (2 ^ 32)).setWidth 32 = d.setWidth 32 + (a + b) := by
  rw [setWidth_pymod32, BitVec.setWidth_add _ _ (by decide), BitVec.setWidth_add _ _ (by decide)]
  congr 1
  congr 1 <;> simp

/-- the value of a comparison, when no output is the smallest 32 bit integer -/
theorem FssDone.bit {S : Sycret Key} {op : FssOp} {x y : MPCTensor (Fin n → I64)} {b : List (Key × Key)} {out : FssOut Key n}
    (h : FssDone S op x y b out) (cmp : BitVec 32 → BitVec 32 → Prop) [DecidableRel cmp] (i : Fin n) (k : Key × Key)
    (hk : b[i.val]? = some k) (hc : KeysCorrect S cmp op k) (hm : NoMinOutput S op (out.opened i) k) :
    out.result.value i = x.session.config.encoder.encode (.long
      (if cmp ((x.value i - y.value i).setWidth 32 + (S.alpha k.1 + S.alpha k.2)) (S.alpha k.1 + S.alpha k.2) then 1 else 0)) := by
  have hi : i.val < b.length := (List.getElem?_eq_some_iff.mp hk).1
  have hk' : b[i.val] = k := (List.getElem?_eq_some_iff.mp hk).2
  have hv := h.value i
  have ho := h.opened i
  rw [hk'] at hv ho
  have hr := toInt_pymod32 (x.value i - y.value i + ((S.alpha k.1).setWidth 64 + (S.alpha k.2).setWidth 64))
  rw [← ho] at hr
  have hb := hc (out.opened i) (by rw [hr]; exact Int.emod_nonneg _ (by decide)) (by rw [hr]; exact Int.emod_lt_of_pos _ (by decide))
  rw [ho, opened32, ← ho] at hb
  rw [hv, outEnc_add]
  congr 2
  rw [outputs_sum _ _ _ (by split <;> simp) hb hm.1 hm.2]
  split <;> rfl

end SyMPC
