import Verif.Model.FssView
import Verif.Props.Fss

/-!
# C88: what a comparison shows about the secrets
-/

namespace SyMPC

variable {Key : Type} {n : Nat}

/-- The keys of a comparison of `n` elements made from the masks `a` of party 0 and `a'` of party 1. -/
def keysOf (gen : BitVec 32 → BitVec 32 → Key × Key) (a a' : Fin n → BitVec 32) : List (Key × Key) := List.ofFn fun i => gen (a i) (a' i)

/-- Key generation puts the masks it is given into the keys. -/
def Masks (S : Sycret Key) (gen : BitVec 32 → BitVec 32 → Key × Key) : Prop :=
  ∀ u v, S.alpha (gen u v).1 = u ∧ S.alpha (gen u v).2 = v

/-- a 32 bit number as torch holds it -/
def wide (m : Fin n → BitVec 32) : Fin n → I64 := fun i => (m i).setWidth 64

theorem eq_wide (z : I64) (m : BitVec 32) (h0 : (pymod z (2 ^ 32)).setWidth 32 = m) : pymod z (2 ^ 32) = m.setWidth 64 := by
  have h1 := toInt_pymod32 z
  subst h0
  apply BitVec.eq_of_toNat_eq
  have h2 := (pymod z (2 ^ 32)).isLt
  have h3 : (pymod z (2 ^ 32)).toNat < 2 ^ 32 := by
    rw [BitVec.toInt_eq_toNat_cond] at h1
    split at h1 <;> omega
  simp only [BitVec.toNat_setWidth]
  omega

/-- one comparison from stores without leftovers -/
theorem compare_clean (S : Sycret Key) {env : Env} (op : FssOp) (gen : BitVec 32 → BitVec 32 → Key × Key) (hgen : Masks S gen)
    (x y : MPCTensor (Fin n → I64)) (hs : x.session.Pair env) (hxy : y.session = x.session) (hx : x.WF env) (hy : y.WF env)
    (w : FssWorld Key) (B : FssOp → List (List (Key × Key))) (hw : w.Holds x.session B) (hB : Clean (B op)) (a a' : Fin n → BitVec 32) :
    ∃ out w', fssOp S env op (keysOf gen a a') x y w = (.ok out, w') ∧ out.view S 0 = (wide a, out.opened) ∧
      out.view S 1 = (wide a', out.opened) ∧
      out.opened = wide fun i => (x.value i - y.value i).setWidth 32 + (a i + a' i) := by
  obtain ⟨out, w', h1, -, h2, -⟩ := (fssOp_spec S op (keysOf gen a a') x y hs hxy hx hy w B hw _ [] (hB.push _)).1 (by simp [keysOf])
  have hlen : n ≤ (keysOf gen a a').length := by simp [keysOf]
  refine ⟨out, w', h1, ?_, ?_, ?_⟩
  · rw [FssOut.view, h2.maskKeys]
    refine Prod.ext (funext fun i => ?_) rfl
    have := alphaShare_take S ((keysOf gen a a').map (·.1)) (by simpa using hlen) i
    simp only [List.getD_cons_zero, List.map_take, wide]
    rw [this]
    simp [keysOf, (hgen _ _).1]
  · rw [FssOut.view, h2.maskKeys]
    refine Prod.ext (funext fun i => ?_) rfl
    have := alphaShare_take S ((keysOf gen a a').map (·.2)) (by simpa using hlen) i
    simp only [List.getD_cons_succ, List.getD_cons_zero, List.map_take, wide]
    rw [this]
    simp [keysOf, (hgen _ _).2]
  · funext i
    rw [h2.opened i]
    refine eq_wide _ _ ?_
    rw [opened32]
    simp [keysOf, (hgen _ _).1, (hgen _ _).2]

/-- the stores after a history of comparisons -/
theorem clean_after (S : Sycret Key) {env : Env} {s : Session} (hs : s.Pair env) (cmds : List (FssCmd Key))
    (hok : ∀ c ∈ cmds, c.Ok env s ∧ c.IsCompare) : ∀ (B : FssOp → List (List (Key × Key))) (w : FssWorld Key), w.Holds s B →
    (∀ o, Clean (B o)) → ∃ B', (runFss S env s cmds w).2.Holds s B' ∧ ∀ o, Clean (B' o) := by
  induction cmds with
  | nil => exact fun B w hw hB => ⟨B, hw, hB⟩
  | cons c cs ih =>
    intro B w hw hB
    obtain ⟨h1, h2⟩ := hok c List.mem_cons_self
    match c, h1, h2 with
    | .compare n op keys x y, ⟨hk, hx, hy, hwx, hwy⟩, _ =>
      subst hx
      obtain ⟨out, w', e1, -, -, e2⟩ := (fssOp_spec S op keys x y hs hy hwx hwy w B hw _ [] ((hB op).push _)).1 (by omega)
      have := ih (fun c hc => hok c (List.mem_cons_of_mem _ hc)) _ w' e2 (by
        intro o
        by_cases ho : o = op
        · rw [if_pos ho]
          exact ⟨rfl, by simp⟩
        · rw [if_neg ho]
          exact hB o)
      rw [runFss, e1]
      exact this

/-- C88: after any comparisons `before`, whatever the secrets `x` and `y`: each pair of own masks `a` and number `m` shown to party 0 comes
from exactly one choice of the masks of party 1, and the other way round.  So if these are drawn uniformly, what a party is shown is
independent of the secrets. -/
theorem C88_party_view_partial (S : Sycret Key) {env : Env} {s : Session} (hs : s.Pair env) (before : List (FssCmd Key))
    (hok : ∀ c ∈ before, c.Ok env s ∧ c.IsCompare) (op : FssOp) (gen : BitVec 32 → BitVec 32 → Key × Key) (hgen : Masks S gen)
    (x y : MPCTensor (Fin n → I64)) (hxs : x.session = s) (hys : y.session = s) (hx : x.WF env) (hy : y.WF env)
    (a m : Fin n → BitVec 32) :
    (∃! a' : Fin n → BitVec 32, ∃ out, (fssOp S env op (keysOf gen a a') x y (runFss S env s before .empty).2).1 = .ok out ∧
      out.view S 0 = (wide a, wide m)) ∧
    ∃! a' : Fin n → BitVec 32, ∃ out, (fssOp S env op (keysOf gen a' a) x y (runFss S env s before .empty).2).1 = .ok out ∧
      out.view S 1 = (wide a, wide m) := by
  subst hxs
  obtain ⟨B, hw, hB⟩ := clean_after S hs before hok _ _ (holds_empty _) (fun _ => ⟨rfl, by simp⟩)
  have hwide : ∀ u v : Fin n → BitVec 32, wide u = wide v → u = v := by
    intro u v h
    funext i
    have := congrArg (BitVec.setWidth 32) (congrFun h i)
    simpa [wide] using this
  constructor
  · refine ⟨fun i => m i - (x.value i - y.value i).setWidth 32 - a i, ?_, ?_⟩
    · obtain ⟨out, w', h1, h2, -, h4⟩ := compare_clean S op gen hgen x y hs hys hx hy _ B hw (hB op) a
        (fun i => m i - (x.value i - y.value i).setWidth 32 - a i)
      refine ⟨out, by rw [h1], ?_⟩
      rw [h2, h4]
      congr 2
      funext i
      abel
    · rintro a' ⟨out, h, hv⟩
      obtain ⟨out', w', h1, h2, -, h4⟩ := compare_clean S op gen hgen x y hs hys hx hy _ B hw (hB op) a a'
      rw [h1] at h
      obtain rfl := Except.ok.inj h
      rw [h2] at hv
      have e := hwide _ _ (h4.symm.trans (Prod.mk.inj hv).2)
      funext i
      rw [← congrFun e i]
      abel
  · refine ⟨fun i => m i - (x.value i - y.value i).setWidth 32 - a i, ?_, ?_⟩
    · obtain ⟨out, w', h1, -, h2, h4⟩ := compare_clean S op gen hgen x y hs hys hx hy _ B hw (hB op)
        (fun i => m i - (x.value i - y.value i).setWidth 32 - a i) a
      refine ⟨out, by rw [h1], ?_⟩
      rw [h2, h4]
      congr 2
      funext i
      abel
    · rintro a' ⟨out, h, hv⟩
      obtain ⟨out', w', h1, -, h2, h4⟩ := compare_clean S op gen hgen x y hs hys hx hy _ B hw (hB op) a' a
      rw [h1] at h
      obtain rfl := Except.ok.inj h
      rw [h2] at hv
      have e := hwide _ _ (h4.symm.trans (Prod.mk.inj hv).2)
      funext i
      rw [← congrFun e i]
      abel

/-- what the caller opens -/
theorem openedSum_eq (S : Sycret Key) {env : Env} (op : FssOp) (keys : List (Key × Key)) (x y : MPCTensor (Fin n → I64))
    (hs : x.session.Pair env) (hxy : y.session = x.session) (hx : x.WF env) (hy : y.WF env) (w : FssWorld Key)
    (B : FssOp → List (List (Key × Key))) (hw : w.Holds x.session B) (hB : Clean (B op)) (hk : keys.length = n) :
    ∃ v, fssOpenedSum S env op keys x y w = .ok v ∧ ∀ i : Fin n, v i = x.value i - y.value i +
      ((S.alpha (keys[i.val]'(by omega)).1).setWidth 64 + (S.alpha (keys[i.val]'(by omega)).2).setWidth 64) := by
  obtain ⟨w1, hg, hw1⟩ := fssGenerate_holds hs op keys w B hw
  obtain ⟨p0, p1, hp, hr, hne, he0, he1, hc0, hc1⟩ := pair_ptrs hs
  obtain ⟨x0, x1, hxs⟩ := pair_shares hs hx
  obtain ⟨y0, y1, hys⟩ := pair_shares (hxy ▸ hs) hy
  have tx := hx.tags
  have ty := hy.tags
  rw [hxy] at ty
  simp only [hxs, hys, hr, List.map_cons, List.map_nil, List.cons.injEq, and_true] at tx ty
  have f0 := hw1.first p0 (by simp [hp]) op
  have f1 := hw1.second p1 (by simp [hp]) op
  simp only [if_true, hB.push, List.map_cons] at f0 f1
  have hpar : x.session.parties.length = 2 := by rw [hs.parties, hs.pair]
  have s0 := share_sub_tagged env x0 y0 p0.uuid p0 tx.1 ty.1 he0
  have s1 := share_sub_tagged env x1 y1 p1.uuid p1 tx.2 ty.2 he1
  have g0 : ∀ rm, (w1 p0.uuid).get op n rm = _ := fun rm =>
    FssStore.get_ok _ op n rm _ _ f0 (by simp [hk])
  have g1 : ∀ rm, (w1 p1.uuid).get op n rm = _ := fun rm =>
    FssStore.get_ok _ op n rm _ _ f1 (by simp [hk])
  have hm : maskAllFss S env w1 op x y = .ok
      [(⟨x0.tensor - y0.tensor + alphaShare S ((keys.map (·.1)).take n), some p0.uuid, p0.config, p0.ringSize⟩, (keys.map (·.1)).take n),
       (⟨x1.tensor - y1.tensor + alphaShare S ((keys.map (·.2)).take n), some p1.uuid, p1.config, p1.ringSize⟩, (keys.map (·.2)).take n)] := by
    unfold maskAllFss
    simp only [hp, hxs, hys, hpar, List.zip_cons_cons, List.zip_nil_right, List.isEmpty_cons, List.length_cons, List.length_nil,
      if_neg (show ¬ (false = true) by decide), if_neg (show ¬ (2 < 0 + 1 + 1) by decide), List.mapM_cons, List.mapM_nil, maskBuilder,
      s0, s1, g0, g1, ok_bind, pure_eq_ok]
  refine ⟨_, by
    unfold fssOpenedSum
    rw [hg, ok_bind, hm, ok_bind, ofShares_ok _ _ hs.ptrs (by simp), ok_bind]
    exact reconstruct_eq_sum _ (by simp), fun i => ?_⟩
  simp only [List.map_cons, List.map_nil, List.sum_cons, List.sum_nil, add_zero, Pi.add_apply, Pi.sub_apply,
    alphaShare_take S (keys.map (·.1)) (by simp [hk]) i, alphaShare_take S (keys.map (·.2)) (by simp [hk]) i, List.getElem_map,
    MPCTensor.value, hxs, hys]
  abel

/-- C88, the caller: `fss_op` opens the sum of the difference of the secrets and two 32 bit masks, which is within `2^33` of the
difference, before it takes the remainder modulo `2^32`. -/
theorem C88_caller_learns_difference (S : Sycret Key) {env : Env} {s : Session} (hs : s.Pair env) (before : List (FssCmd Key))
    (hok : ∀ c ∈ before, c.Ok env s ∧ c.IsCompare) (op : FssOp) (keys : List (Key × Key)) (hk : keys.length = n)
    (x y : MPCTensor (Fin n → I64)) (hxs : x.session = s) (hys : y.session = s) (hx : x.WF env) (hy : y.WF env) :
    ∃ v, fssOpenedSum S env op keys x y (runFss S env s before .empty).2 = .ok v ∧
      ∀ i, (v i - (x.value i - y.value i)).toNat ≤ 2 ^ 33 - 2 := by
  subst hxs
  obtain ⟨B, hw, hB⟩ := clean_after S hs before hok _ _ (holds_empty _) (fun _ => ⟨rfl, by simp⟩)
  obtain ⟨v, h1, h2⟩ := openedSum_eq S op keys x y hs hys hx hy _ B hw (hB op) hk
  refine ⟨v, h1, fun i => ?_⟩
  rw [h2 i, add_sub_cancel_left, BitVec.toNat_add, BitVec.toNat_setWidth, BitVec.toNat_setWidth]
  have a1 := (S.alpha (keys[i.val]'(by omega)).1).isLt
  have a2 := (S.alpha (keys[i.val]'(by omega)).2).isLt
  omega

/-- C88, the caller: two pairs of secrets whose differences are `2^33` quanta or more apart never lead to the same opened number, whatever
the keys: the masks do not hide them. -/
theorem C88_caller_tells_apart (S : Sycret Key) {env : Env} {s : Session} (hs : s.Pair env) (before : List (FssCmd Key))
    (hok : ∀ c ∈ before, c.Ok env s ∧ c.IsCompare) (op : FssOp) (keys keys' : List (Key × Key)) (hk : keys.length = n)
    (hk' : keys'.length = n) (x y x' y' : MPCTensor (Fin n → I64)) (hxs : x.session = s) (hys : y.session = s) (hx : x.WF env)
    (hy : y.WF env) (hxs' : x'.session = s) (hys' : y'.session = s) (hx' : x'.WF env) (hy' : y'.WF env) (i : Fin n)
    (h1 : 2 ^ 33 ≤ ((x.value i - y.value i) - (x'.value i - y'.value i)).toNat)
    (h2 : ((x.value i - y.value i) - (x'.value i - y'.value i)).toNat ≤ 2 ^ 64 - 2 ^ 33) :
    fssOpenedSum S env op keys x y (runFss S env s before .empty).2
      ≠ fssOpenedSum S env op keys' x' y' (runFss S env s before .empty).2 := by
  obtain ⟨v, e1, e2⟩ := C88_caller_learns_difference S hs before hok op keys hk x y hxs hys hx hy
  obtain ⟨v', e1', e2'⟩ := C88_caller_learns_difference S hs before hok op keys' hk' x' y' hxs' hys' hx' hy'
  intro h
  rw [e1, e1'] at h
  obtain rfl := Except.ok.inj h
  have a := e2 i
  have b := e2' i
  rw [BitVec.toNat_sub] at a b h1 h2
  have := (v i).isLt
  have := (x.value i - y.value i).isLt
  have := (x'.value i - y'.value i).isLt
  omega

/-- C88: the remainder of the opened number is what the parties are shown. -/
theorem C88_shown_is_remainder (S : Sycret Key) {env : Env} {s : Session} (hs : s.Pair env) (before : List (FssCmd Key))
    (hok : ∀ c ∈ before, c.Ok env s ∧ c.IsCompare) (op : FssOp) (keys : List (Key × Key)) (hk : keys.length = n)
    (x y : MPCTensor (Fin n → I64)) (hxs : x.session = s) (hys : y.session = s) (hx : x.WF env) (hy : y.WF env) :
    ∃ v out, fssOpenedSum S env op keys x y (runFss S env s before .empty).2 = .ok v ∧
      (fssOp S env op keys x y (runFss S env s before .empty).2).1 = .ok out ∧
      ∀ i b, ((out.view S b).2 i).toInt = (v i).toInt % 2 ^ 32 := by
  subst hxs
  obtain ⟨B, hw, hB⟩ := clean_after S hs before hok _ _ (holds_empty _) (fun _ => ⟨rfl, by simp⟩)
  obtain ⟨v, h1, h2⟩ := openedSum_eq S op keys x y hs hys hx hy _ B hw (hB op) hk
  obtain ⟨out, w', h3, -, h4, -⟩ := (fssOp_spec S op keys x y hs hys hx hy _ B hw _ [] ((hB op).push _)).1 (by omega)
  refine ⟨v, out, h1, by rw [h3], fun i b => ?_⟩
  rw [FssOut.view]
  dsimp only
  rw [h4.opened i, toInt_pymod32, h2 i]

/-- keys that meet `Masks` -/
example (cmp : BitVec 32 → BitVec 32 → Bool) (rnd : Int) : Masks (exSycret cmp rnd) exKey := fun _ _ => ⟨rfl, rfl⟩

/-- `2^40 == 0` and `0 == 0` with the masks 5 and 6: party 0 is shown 11 in both cases, the caller opens `2^40 + 11` and 11 -/
example : (let S := exSycret (fun m α => decide (SignedLe m α)) 0
    let zero := exPairSecret (fun _ : Fin 1 => 7) (fun _ => BitVec.ofInt 64 (-7))
    [2 ^ 40, 0].map fun d =>
      let x := exPairSecret (fun _ : Fin 1 => d) (fun _ => 0)
      ((fssOpenedSum S exPairEnv .eq [exKey 5 6] x zero .empty).map fun v => v 0,
        (fssOp S exPairEnv .eq [exKey 5 6] x zero .empty).1.map fun out => (out.view S 0).2 0))
    = [(.ok (2 ^ 40 + 11), .ok 11), (.ok 11, .ok 11)] := by decide +kernel

end SyMPC
