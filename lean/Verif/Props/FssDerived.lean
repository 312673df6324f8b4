import Verif.Props.Fss
import Verif.Props.Derived

/-!
# C39 with function secret sharing

The derived comparisons of `Props/Derived.lean`, which hold for every protocol that compares correctly, for the protocol that the code
has.
-/

namespace SyMPC

variable {Key : Type}

/-- a secret number as a tensor with one element -/
def MPCTensor.single (x : MPCTensor I64) : MPCTensor (Fin 1 → I64) :=
  ⟨x.session, x.shares.map fun t => ⟨fun _ => t.tensor, t.sessionUuid, t.config, t.ringSize⟩⟩

/-- the element of a tensor with one element -/
def MPCTensor.element (x : MPCTensor (Fin 1 → I64)) : MPCTensor I64 :=
  ⟨x.session, x.shares.map fun t => ⟨t.tensor 0, t.sessionUuid, t.config, t.ringSize⟩⟩

/-- Function secret sharing as comparison protocol: `FSS.le` and `FSS.eq`, `fss.py:118-180, 204-228`, on numbers, with the keys that key
generation draws for the comparison and stores that hold no keys. -/
def fssCmp (S : Sycret Key) (env : Env) (keq kle : Key × Key) : CmpProtocol where
  le x y := (fssOp S env .comp [kle] x.single y.single .empty).1.map (·.result.element)
  eq x y := (fssOp S env .eq [keq] x.single y.single .empty).1.map (·.result.element)

/-- the value that a comparison of the numbers `a` and `b` opens -/
def openedAt (S : Sycret Key) (k : Key × Key) (a b : Int) : I64 :=
  pymod (BitVec.ofInt 64 a - BitVec.ofInt 64 b + ((S.alpha k.1).setWidth 64 + (S.alpha k.2).setWidth 64)) (2 ^ 32)

/-- Two numbers are less than `2^31` apart and no output of the keys at the opened values is the smallest 32 bit integer. -/
def Comparable (S : Sycret Key) (keq kle : Key × Key) (a b : Int) : Prop :=
  -2 ^ 31 ≤ a - b ∧ a - b < 2 ^ 31 ∧ NoMinOutput S .comp (openedAt S kle a b) kle ∧ NoMinOutput S .eq (openedAt S keq a b) keq

theorem single_wf {env : Env} {x : MPCTensor I64} (hx : x.WF env) : x.single.WF env := by
  refine ⟨hx.ready, ?_⟩
  have := hx.tags
  simpa [MPCTensor.single, Function.comp_def] using this

theorem single_value (x : MPCTensor I64) (i : Fin 1) : x.single.value i = x.value := by
  unfold MPCTensor.value MPCTensor.single
  rw [List.map_map]
  induction x.shares with
  | nil => rfl
  | cons a l ih => rw [List.map_cons, List.map_cons, List.sum_cons, List.sum_cons, ← ih]; rfl

theorem element_wf {env : Env} {x : MPCTensor (Fin 1 → I64)} (hx : x.WF env) : x.element.WF env := by
  refine ⟨hx.ready, ?_⟩
  have := hx.tags
  simpa [MPCTensor.element, Function.comp_def] using this

theorem element_value (x : MPCTensor (Fin 1 → I64)) : x.element.value = x.value 0 := by
  unfold MPCTensor.value MPCTensor.element
  rw [List.map_map]
  induction x.shares with
  | nil => rfl
  | cons a l ih => rw [List.map_cons, List.map_cons, List.sum_cons, List.sum_cons, Pi.add_apply, ← ih]; rfl

/-- one comparison of numbers -/
theorem fss_single (S : Sycret Key) {env : Env} {s : Session} (hs : s.Pair env) (op : FssOp) (k : Key × Key) (x y : MPCTensor I64)
    (hx : x.WF env) (hy : y.WF env) (sx : x.session = s) (sy : y.session = s) :
    ∃ out, (fssOp S env op [k] x.single y.single .empty).1 = .ok out ∧ out.result.WF env ∧ out.result.session = s ∧
      FssDone S op x.single y.single [k] out ∧ out.opened 0 = openedAt S k x.value.toInt y.value.toInt := by
  have ss : x.single.session = s := sx
  obtain ⟨out, w', h1, h2, h3, -⟩ := (fssOp_spec S op [k] x.single y.single (ss ▸ hs) (by rw [ss]; exact sy) (single_wf hx) (single_wf hy)
    .empty (fun _ => [[]]) (holds_empty _) [k] [] rfl).1 (by simp)
  refine ⟨out, by rw [h1], h2, h3.session.trans sx, h3, ?_⟩
  have := h3.opened 0
  rw [this, single_value, single_value]
  unfold openedAt
  rw [BitVec.ofInt_toInt, BitVec.ofInt_toInt]
  rfl

/-- C39: function secret sharing compares correctly numbers that are less than `2^31` quanta apart, so that the theorems on the derived
comparisons apply to it. -/
theorem C39_fss_correct (S : Sycret Key) {env : Env} {s : Session} (hs : s.Pair env) (keq kle : Key × Key)
    (h1 : KeysCorrect S (· = ·) .eq keq) (h2 : KeysCorrect S SignedLe .comp kle) :
    (fssCmp S env keq kle).Correct env s (Comparable S keq kle) where
  le x y hx hy sx sy := by
    rintro ⟨g1, g2, g3, -⟩
    obtain ⟨out, e1, e2, e3, e4, e5⟩ := fss_single S hs .comp kle x y hx hy sx sy
    refine ⟨out.result.element, ?_, element_wf e2, e3, ?_⟩
    · change (fssOp S env .comp [kle] x.single y.single .empty).1.map _ = _
      rw [e1]
      rfl
    · rw [element_value, e4.bit SignedLe 0 kle rfl h2 (by rw [e5]; exact g3), single_value, single_value]
      unfold bitOf
      simp only [signedLe_iff _ _ _ g1 g2]
      rw [show x.single.session = s from sx]
  eq x y hx hy sx sy := by
    rintro ⟨g1, g2, -, g3⟩
    obtain ⟨out, e1, e2, e3, e4, e5⟩ := fss_single S hs .eq keq x y hx hy sx sy
    refine ⟨out.result.element, ?_, element_wf e2, e3, ?_⟩
    · change (fssOp S env .eq [keq] x.single y.single .empty).1.map _ = _
      rw [e1]
      rfl
    · rw [element_value, e4.bit (· = ·) 0 keq rfl h1 (by rw [e5]; exact g3), single_value, single_value]
      unfold bitOf
      rw [show x.single.session = s from sx]
      congr 3
      apply propext
      rw [add_eq_right, low32_zero]
      constructor
      · intro h
        obtain ⟨q, hq⟩ := h.dvd
        omega
      · intro h
        rw [h]

/-- C39: `x != y` by function secret sharing in a session with a scale of at most `2^16`, if moreover the first party's output is not
`-2^31 + 1`. -/
theorem C39_fss_ne (S : Sycret Key) (fl : ℚ → ℚ) {env : Env} (rnd : WrapRand) {s : Session} (hs : s.Pair env) (keq kle : Key × Key)
    (h1 : KeysCorrect S (· = ·) .eq keq) (h2 : KeysCorrect S SignedLe .comp kle)
    (hS0 : 0 < s.config.encoder.scale) (hS : s.config.encoder.scale ≤ 2 ^ 16)
    (x y : MPCTensor I64) (hx : x.WF env) (hy : y.WF env) (sx : x.session = s) (sy : y.session = s)
    (hD : Comparable S keq kle x.value.toInt y.value.toInt)
    (hm : toInt32 (S.eval .eq 0 (openedAt S keq x.value.toInt y.value.toInt) keq.1) ≠ -2 ^ 31 + 1) :
    ∃ z : MPCTensor I64, x.ne (fssCmp S env keq kle) fl env rnd y = .ok z ∧ z.WF env ∧
      z.reconstruct = .ok (bitOf s.config (x.value.toInt ≠ y.value.toInt)) := by
  obtain ⟨out, e1, e2, e3, e4, e5⟩ := fss_single S hs .eq keq x y hx hy sx sy
  have he : (fssCmp S env keq kle).eq x y = .ok out.result.element := by
    change (fssOp S env .eq [keq] x.single y.single .empty).1.map _ = _
    rw [e1]
    rfl
  have hsh : out.result.element.shares.map (·.tensor)
      = [outEnc s.config (toInt32 (S.eval .eq 0 (out.opened 0) keq.1)), outEnc s.config (toInt32 (S.eval .eq 1 (out.opened 0) keq.2))] := by
    have := congrArg (List.map fun f : Fin 1 → I64 => f 0) e4.shares
    rw [show x.single.session = s from sx] at this
    simpa [MPCTensor.element, Function.comp_def] using this
  have henc : ∀ o : Int, outEnc s.config o = BitVec.ofInt 64 (o * s.config.encoder.scale) := by
    intro o
    unfold outEnc
    simp only [FixedPointEncoder.encode, FixedPointEncoder.encodeInt]
    rw [BitVec.ofInt_mul, BitVec.ofInt_mul, BitVec.ofInt_toInt]
  rw [henc, henc] at hsh
  obtain ⟨g1, g2⟩ := toInt32_bounds (S.eval .eq 0 (out.opened 0) keq.1)
  obtain ⟨g3, g4⟩ := toInt32_bounds (S.eval .eq 1 (out.opened 0) keq.2)
  obtain ⟨m0, m1⟩ := hD.2.2.2
  rw [← e5] at m0 m1 hm
  have hSS : ((s.config.encoder.scale : Nat) : Int) * s.config.encoder.scale ≤ 2 ^ 32 := by
    have : ((s.config.encoder.scale : Nat) : Int) ≤ 2 ^ 16 := by exact_mod_cast hS
    nlinarith
  have hS2 : (0 : Int) ≤ ((s.config.encoder.scale : Nat) : Int) * s.config.encoder.scale := by positivity
  refine C39_ne_exact (fssCmp S env keq kle) fl env rnd s _ (C39_fss_correct S hs keq kle h1 h2) hs.pair _ rfl hS0
    (by omega) x y hx hy sx sy hD _ he _ _ hsh ?_ ?_
  · have hb : |toInt32 (S.eval .eq 0 (out.opened 0) keq.1) - 1| ≤ 2 ^ 31 - 1 := by
      rw [abs_le]; omega
    rw [mul_assoc]
    calc _ ≤ (2 ^ 31 - 1) * 2 ^ 32 := mul_le_mul hb hSS hS2 (by norm_num)
      _ < 2 ^ 63 := by norm_num
  · have hb : |toInt32 (S.eval .eq 1 (out.opened 0) keq.2)| ≤ 2 ^ 31 - 1 := by
      rw [abs_le]; omega
    rw [mul_assoc]
    calc _ ≤ (2 ^ 31 - 1) * 2 ^ 32 := mul_le_mul hb hSS hS2 (by norm_num)
      _ < 2 ^ 63 := by norm_num

/-- C39: with a number of parties other than two, every derived comparison raises `ValueError`, as `<=` and `==` do. -/
theorem C39_only_two_parties (S : Sycret Key) (fl : ℚ → ℚ) (env : Env) (rnd : WrapRand) (keq kle : Key × Key) (x y : MPCTensor I64)
    (hx : x.WF env) (hy : y.WF env) (hxy : y.session = x.session) (h : x.session.sessionPtrs.length ≠ 2) :
    x.ge (fssCmp S env keq kle) y = .error .valueError ∧ x.lt (fssCmp S env keq kle) env y = .error .valueError ∧
    x.gt (fssCmp S env keq kle) env y = .error .valueError ∧ x.ne (fssCmp S env keq kle) fl env rnd y = .error .valueError := by
  have hle : ∀ a b : MPCTensor I64, a.session.sessionPtrs.length ≠ 2 → (fssCmp S env keq kle).le a b = .error .valueError := by
    intro a b ha
    change (fssOp S env .comp [kle] a.single b.single .empty).1.map _ = _
    rw [C38_only_two_parties S env .comp [kle] a.single b.single .empty ha]
    rfl
  refine ⟨hle y x (by rw [hxy]; exact h), ?_, ?_, ?_⟩
  · obtain ⟨w, e1, e2, -⟩ := pub_ok env .add x (quantum x.session.config) hx _ (WF.reconstruct hx)
    unfold MPCTensor.lt
    rw [e1, ok_bind, hle w y (by rw [e2]; exact h)]
  · obtain ⟨w, e1, e2, -⟩ := pub_ok env .add y (quantum x.session.config) hy _ (WF.reconstruct hy)
    unfold MPCTensor.gt
    rw [e1, ok_bind, hle w x (by rw [e2, hxy]; exact h)]
  · unfold MPCTensor.ne
    have : (fssCmp S env keq kle).eq x y = .error .valueError := by
      change (fssOp S env .eq [keq] x.single y.single .empty).1.map _ = _
      rw [C38_only_two_parties S env .eq [keq] x.single y.single .empty h]
      rfl
    rw [this]
    rfl

/-- the library of the examples, with the output 123456 of the first party -/
abbrev exLibrary : Sycret (BitVec 32 × BitVec 32) := exSycret (fun m α => decide (SignedLe m α)) 123456

/-- C39: the hypotheses of `C39_fss_ne` hold for the secrets -3 and 5 and for 5 and 5, and the result is 1 and 0. -/
example : exPair.Pair exPairEnv ∧ KeysCorrect exLibrary (· = ·) .eq (exKey 7 9) ∧ KeysCorrect exLibrary SignedLe .comp (exKey 1 2) ∧
    Comparable exLibrary (exKey 7 9) (exKey 1 2) (-3) 5 ∧ Comparable exLibrary (exKey 7 9) (exKey 1 2) 5 5 ∧
    (match (exPairSecret 7 (-10)).ne (fssCmp exLibrary exPairEnv (exKey 7 9) (exKey 1 2)) f32 exPairEnv ⟨0, fun _ => 0, fun _ => 0⟩
        (exPairSecret 12 (-7)) with
      | .ok z => z.reconstruct
      | .error e => .error e) = .ok 65536 ∧
    (match (exPairSecret 15 (-10)).ne (fssCmp exLibrary exPairEnv (exKey 7 9) (exKey 1 2)) f32 exPairEnv ⟨0, fun _ => 0, fun _ => 0⟩
        (exPairSecret 12 (-7)) with
      | .ok z => z.reconstruct
      | .error e => .error e) = .ok 0 :=
  ⟨exPairPair, exKey_eq _ _ _ _, exKey_comp _ _ _ _,
    ⟨by norm_num, by norm_num, by unfold NoMinOutput; decide +kernel, by unfold NoMinOutput; decide +kernel⟩,
    ⟨by norm_num, by norm_num, by unfold NoMinOutput; decide +kernel, by unfold NoMinOutput; decide +kernel⟩,
    by decide +kernel, by decide +kernel⟩

/-- C39, the code disagrees: if the first party's output is `-2^31 + 1`, then with the default scale `2^16` the share of the first party
wraps in the product of `1 - eq`, and the different secrets -3 and 5 are reported as `1 - 2^32`. -/
theorem C39_fss_ne_wrong : ∃ S : Sycret (BitVec 32 × BitVec 32),
    KeysCorrect S (· = ·) .eq (exKey 7 9) ∧ KeysCorrect S SignedLe .comp (exKey 1 2) ∧
    Comparable S (exKey 7 9) (exKey 1 2) (-3) 5 ∧
    (match (exPairSecret 7 (-10)).ne (fssCmp S exPairEnv (exKey 7 9) (exKey 1 2)) f32 exPairEnv ⟨0, fun _ => 0, fun _ => 0⟩
        (exPairSecret 12 (-7)) with
      | .ok z => z.reconstruct
      | .error e => .error e) = .ok (exPair.config.encoder.encode (.int (1 - 2 ^ 32))) :=
  ⟨exSycret (fun m α => decide (SignedLe m α)) (-2 ^ 31 + 1), exKey_eq _ _ _ _, exKey_comp _ _ _ _,
    ⟨by norm_num, by norm_num, by unfold NoMinOutput; decide +kernel, by unfold NoMinOutput; decide +kernel⟩, by decide +kernel⟩

/-- C39: three parties. -/
example (a b c d : I64) : ∀ x y : MPCTensor I64, x = ⟨exSession, [⟨a, some 100, {}, 2 ^ 64⟩, ⟨b, some 101, {}, 2 ^ 64⟩, ⟨c, some 102, {}, 2 ^ 64⟩]⟩ →
    y = ⟨exSession, [⟨d, some 100, {}, 2 ^ 64⟩, ⟨b, some 101, {}, 2 ^ 64⟩, ⟨a, some 102, {}, 2 ^ 64⟩]⟩ →
    x.lt (fssCmp exLibrary exEnv (exKey 7 9) (exKey 1 2)) exEnv y = .error .valueError := by
  rintro x y rfl rfl
  exact (C39_only_two_parties exLibrary f32 exEnv ⟨0, fun _ => 0, fun _ => 0⟩ _ _
    ⟨exSession, [⟨a, some 100, {}, 2 ^ 64⟩, ⟨b, some 101, {}, 2 ^ 64⟩, ⟨c, some 102, {}, 2 ^ 64⟩]⟩
    ⟨exSession, [⟨d, some 100, {}, 2 ^ 64⟩, ⟨b, some 101, {}, 2 ^ 64⟩, ⟨a, some 102, {}, 2 ^ 64⟩]⟩
    ⟨exReady, rfl⟩ ⟨exReady, rfl⟩ rfl (show exSession.sessionPtrs.length ≠ 2 by decide)).2.1

end SyMPC
