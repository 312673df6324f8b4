import Verif.Spec.Accuracy
import Verif.Model.MProgram
import Verif.Props.RProgram
import Verif.Props.Machine
import Verif.Props.Truncation
import Verif.Props.Encoder
import Verif.Props.AlgoMachine

/-!
# C78: whole programs with fixed point numbers
-/

namespace SyMPC.Program

open FixedPointEncoder (Val)

/-- an encoded number is near a number -/
def Near (S : ℚ) (u : I64) (a : Estimate) : Prop := |(u.toInt : ℚ) - a.num * S| ≤ a.err * S

variable {S : ℚ}

theorem near_zero : Near S 0 0 := by simp [Near, show (0 : Estimate).num = 0 from rfl, show (0 : Estimate).err = 0 from rfl]

theorem Near.size {u : I64} {a : Estimate} (hS : 0 < S) (h : Near S u a) : |(u.toInt : ℚ)| ≤ (|a.num| + a.err) * S := by
  unfold Near at h
  have : |a.num * S| = |a.num| * S := by rw [abs_mul, abs_of_pos hS]
  calc |(u.toInt : ℚ)| = |((u.toInt : ℚ) - a.num * S) + a.num * S| := by congr 1; ring
    _ ≤ |(u.toInt : ℚ) - a.num * S| + |a.num * S| := abs_add_le _ _
    _ ≤ _ := by rw [this]; linarith

theorem Near.err_nonneg {u : I64} {a : Estimate} (hS : 0 < S) (h : Near S u a) : 0 ≤ a.err := by
  have := (abs_nonneg _).trans h
  by_contra hn
  have := mul_neg_of_neg_of_pos (not_le.mp hn) hS
  linarith

theorem toInt_of_abs {z : Int} (h : |(z : ℚ)| < 2 ^ 63) : (BitVec.ofInt 64 z).toInt = z := by
  have : |z| < 2 ^ 63 := by exact_mod_cast h
  rw [abs_lt] at this
  exact toInt_ofInt64 (by omega) this.2

theorem near_given (c : Config) (hS : 0 < c.encoder.scale) (v : Val) (h : (given c.encoder.scale v).Room c.encoder.scale) :
    Near c.encoder.scale (c.encoder.encode v) (given c.encoder.scale v) := by
  have hS' : (0 : ℚ) < c.encoder.scale := by exact_mod_cast hS
  unfold Near
  cases v with
  | float q =>
    simp only [given, Estimate.Room] at h ⊢
    obtain ⟨h1, h2, -⟩ := truncRat_bounds (q * c.encoder.scale)
    have hq : |q * c.encoder.scale| < 2 ^ 63 := by
      rw [abs_mul, abs_of_pos hS']
      refine lt_of_le_of_lt ?_ h
      have : (0 : ℚ) < 1 / c.encoder.scale := by positivity
      nlinarith
    have : (c.encoder.encode (.float q)).toInt = FixedPointEncoder.truncRat (q * c.encoder.scale) :=
      toInt_of_abs (lt_of_le_of_lt h1 hq)
    rw [this, abs_sub_comm, one_div, inv_mul_cancel₀ hS'.ne']
    exact h2.le
  | int z =>
    simp only [given, numOf, Estimate.Room, add_zero] at h ⊢
    have : (c.encoder.encode (.int z)).toInt = z * c.encoder.scale := toInt_of_abs (by
      show |((_ * (c.encoder.scale : Int) : Int) : ℚ)| < _
      push_cast
      rwa [abs_mul, abs_of_pos hS'])
    rw [this]
    simp
  | long t =>
    simp only [given, numOf, Estimate.Room, add_zero] at h ⊢
    have : (c.encoder.encode (.long t)).toInt = t.toInt * c.encoder.scale := toInt_of_abs (by
      show |((_ * (c.encoder.scale : Int) : Int) : ℚ)| < _
      push_cast
      rwa [abs_mul, abs_of_pos hS'])
    rw [this]
    simp

theorem near_lin (o : MPCTensor.LinOp) {u w : I64} {a b : Estimate} (hS : 0 < S) (hu : Near S u a) (hw : Near S w b)
    (hr : (a.lin o b).Room S) : Near S (LinOp.den o u w) (a.lin o b) := by
  obtain ⟨z, hz, hd⟩ : ∃ z : Int, (z : ℚ) = LinOp.den o (u.toInt : ℚ) (w.toInt : ℚ) ∧ LinOp.den o u w = BitVec.ofInt 64 z := by
    cases o
    · exact ⟨u.toInt + w.toInt, by simp [LinOp.den], by rw [BitVec.ofInt_add, BitVec.ofInt_toInt, BitVec.ofInt_toInt]; rfl⟩
    · refine ⟨u.toInt - w.toInt, by simp [LinOp.den], ?_⟩
      show u - w = _
      rw [sub_eq_iff_eq_add]
      conv_rhs => rw [← BitVec.ofInt_toInt (x := w)]
      rw [BitVec.toInt_ofInt, ← BitVec.toInt_ofInt, BitVec.ofInt_toInt, ← BitVec.ofInt_toInt (x := w), ← BitVec.ofInt_add]
      simp
  have hn : |(z : ℚ) - (a.lin o b).num * S| ≤ (a.lin o b).err * S := by
    rw [hz]
    unfold Near at hu hw
    cases o
    · simp only [LinOp.den, Estimate.lin]
      calc _ = |((u.toInt : ℚ) - a.num * S) + (w.toInt - b.num * S)| := by congr 1; ring
        _ ≤ _ := abs_add_le _ _
        _ ≤ _ := by linarith
    · simp only [LinOp.den, Estimate.lin]
      calc _ = |((u.toInt : ℚ) - a.num * S) - (w.toInt - b.num * S)| := by congr 1; ring
        _ ≤ _ := abs_sub _ _
        _ ≤ _ := by linarith
  have hsize : |(z : ℚ)| < 2 ^ 63 := by
    refine lt_of_le_of_lt ?_ hr
    have : |(a.lin o b).num * S| = |(a.lin o b).num| * S := by rw [abs_mul, abs_of_pos hS]
    calc |(z : ℚ)| = |((z : ℚ) - (a.lin o b).num * S) + (a.lin o b).num * S| := by congr 1; ring
      _ ≤ _ := abs_add_le _ _
      _ ≤ _ := by rw [this]; linarith
  unfold Near
  rw [hd, toInt_of_abs hsize]
  exact hn

/-- a product that was divided by the scale -/
theorem near_mul {u w t : I64} {a b : Estimate} {e : ℚ} (hS : 0 < S) (hu : Near S u a) (hw : Near S w b) (hr : ProductRoom S a b)
    (ht : |(t.toInt : ℚ) * S - ((u * w).toInt : ℚ)| ≤ e * S) : Near S t (a.mul S e b) := by
  have su := hu.size hS
  have sw := hw.size hS
  have ea := hu.err_nonneg hS
  have eb := hw.err_nonneg hS
  have hp : ((u * w).toInt : ℚ) = u.toInt * w.toInt := by
    have h : |((u.toInt * w.toInt : Int) : ℚ)| < 2 ^ 63 := by
      push_cast
      rw [abs_mul]
      exact lt_of_le_of_lt (mul_le_mul su sw (abs_nonneg _) ((abs_nonneg _).trans su)) hr
    have hm : u * w = BitVec.ofInt 64 (u.toInt * w.toInt) := by rw [BitVec.ofInt_mul, BitVec.ofInt_toInt, BitVec.ofInt_toInt]
    rw [hm, toInt_of_abs h]
    push_cast
    rfl
  unfold Near at *
  rw [hp] at ht
  have key : |(u.toInt : ℚ) * w.toInt - a.num * b.num * S * S| ≤ (|a.num| * b.err + |b.num| * a.err + a.err * b.err) * S * S := by
    have e : (u.toInt : ℚ) * w.toInt - a.num * b.num * S * S
        = (a.num * S) * (w.toInt - b.num * S) + (b.num * S) * (u.toInt - a.num * S) + (u.toInt - a.num * S) * (w.toInt - b.num * S) := by ring
    rw [e]
    have h1 : |(a.num * S) * (w.toInt - b.num * S)| ≤ (|a.num| * S) * (b.err * S) := by
      rw [abs_mul, abs_mul, abs_of_pos hS]
      exact mul_le_mul_of_nonneg_left hw (by positivity)
    have h2 : |(b.num * S) * (u.toInt - a.num * S)| ≤ (|b.num| * S) * (a.err * S) := by
      rw [abs_mul, abs_mul, abs_of_pos hS]
      exact mul_le_mul_of_nonneg_left hu (by positivity)
    have h3 : |((u.toInt : ℚ) - a.num * S) * (w.toInt - b.num * S)| ≤ (a.err * S) * (b.err * S) := by
      rw [abs_mul]
      exact mul_le_mul hu hw (abs_nonneg _) ((abs_nonneg _).trans hu)
    refine (abs_add_three _ _ _).trans ((add_le_add (add_le_add h1 h2) h3).trans (le_of_eq ?_))
    ring
  simp only [Estimate.mul]
  have hfin : |(t.toInt : ℚ) - a.num * b.num * S| * S ≤ (|a.num| * b.err + |b.num| * a.err + a.err * b.err + e / S) * S * S := by
    rw [← abs_of_pos hS, ← abs_mul, abs_of_pos hS]
    calc |((t.toInt : ℚ) - a.num * b.num * S) * S|
        = |((t.toInt : ℚ) * S - u.toInt * w.toInt) + (u.toInt * w.toInt - a.num * b.num * S * S)| := by congr 1; ring
      _ ≤ _ := abs_add_le _ _
      _ ≤ e * S + _ := add_le_add ht key
      _ = _ := by field_simp; ring
  exact le_of_mul_le_mul_right hfin hS

/-- the tensors have the estimated values -/
def AllNear {ι : Type} (S : ℚ) (us : List (ι → I64)) (as : List (ι → Estimate)) : Prop :=
  us.length = as.length ∧ ∀ i k, Near S (us.getD i 0 k) (as.getD i 0 k)

theorem AllNear.push {ι : Type} {us : List (ι → I64)} {as : List (ι → Estimate)} (h : AllNear S us as) {u : ι → I64} {a : ι → Estimate}
    (hn : ∀ k, Near S (u k) (a k)) : AllNear S (us ++ [u]) (as ++ [a]) := by
  refine ⟨by simp [h.1], fun i k => ?_⟩
  have hl := h.1
  simp only [List.getD_eq_getElem?_getD]
  have h2 := h.2 i k
  simp only [List.getD_eq_getElem?_getD] at h2
  rcases lt_trichotomy i us.length with hi | hi | hi
  · rw [List.getElem?_append_left hi, List.getElem?_append_left (hl ▸ hi)]
    exact h2
  · rw [List.getElem?_append_right hi.ge, List.getElem?_append_right (hl ▸ hi.ge), ← hl, hi]
    simpa using hn k
  · rw [List.getElem?_eq_none (by simp; omega), List.getElem?_eq_none (by simp; omega)]
    exact near_zero

theorem allNear_nil {ι : Type} : AllNear S ([] : List (ι → I64)) [] := ⟨rfl, fun i k => by simpa using near_zero⟩

end SyMPC.Program

namespace SyMPC.RProgram

open FixedPointEncoder (Val)
open Program

variable {ι : Type} [Fintype ι]

theorem near_cut_lt (c : Config) (hc : ScaleFits 64 c) (hS : 0 < c.encoder.scale) (z : Fin 3 → ι → I64) (r : ι → I64) (k : ι)
    (h1 : -2 ^ 63 ≤ (z 0 k).toInt + (z 1 k + z 2 k).toInt) (h2 : (z 0 k).toInt + (z 1 k + z 2 k).toInt < 2 ^ 63) :
    |((val (cut ((powKit 64).tensor ι) c z r) k).toInt : ℚ) * c.encoder.scale - ((val z k).toInt : ℚ)| < 2 * c.encoder.scale := by
  have hv : val (cut ((powKit 64).tensor ι) c z r) k = shiftPow 64 c (z 0 k) + shiftPow 64 c (z 1 k + z 2 k) := by
    show shiftPow 64 c (z 0 k) + (shiftPow 64 c (z 1 k + z 2 k) - r k) + r k = _
    ring
  have hz : val z k = z 0 k + (z 1 k + z 2 k) := by
    show z 0 k + z 1 k + z 2 k = _
    ring
  rw [hv, hz, shiftPow_sum 64 (by norm_num) c hc _ _ h1 h2, toInt_add_of (by norm_num) _ _ h1 h2]
  generalize (z 0 k).toInt = a
  generalize (z 1 k + z 2 k).toInt = b
  have key : |(localQuot c a + localQuot c b) * (c.encoder.scale : Int) - (a + b)| < 2 * c.encoder.scale := by
    have hS' : (0 : Int) < c.encoder.scale := by exact_mod_cast hS
    unfold localQuot
    split
    · rename_i hb
      have hs : (c.encoder.scale : Int) = 2 ^ c.encoderPrecision := by
        show ((c.encoderBase ^ c.encoderPrecision : Nat) : Int) = _
        rw [hb]; push_cast; rfl
      rw [← hs]
      have ha := Int.mul_ediv_add_emod a c.encoder.scale
      have hb := Int.mul_ediv_add_emod b c.encoder.scale
      have a1 := Int.emod_nonneg a hS'.ne'
      have a2 := Int.emod_lt_of_pos a hS'
      have b1 := Int.emod_nonneg b hS'.ne'
      have b2 := Int.emod_lt_of_pos b hS'
      rw [abs_lt, add_mul]
      constructor <;> nlinarith
    · exact (tdiv_add a b _ hS').2
  exact_mod_cast key

theorem near_cut (c : Config) (hc : ScaleFits 64 c) (hS : 0 < c.encoder.scale) (z : Fin 3 → ι → I64) (r : ι → I64) (k : ι)
    (h1 : -2 ^ 63 ≤ (z 0 k).toInt + (z 1 k + z 2 k).toInt) (h2 : (z 0 k).toInt + (z 1 k + z 2 k).toInt < 2 ^ 63) :
    |((val (cut ((powKit 64).tensor ι) c z r) k).toInt : ℚ) * c.encoder.scale - ((val z k).toInt : ℚ)| ≤ 2 * c.encoder.scale :=
  (near_cut_lt c hc hS z r k h1 h2).le

theorem go_prefix {P T : Type} [CommRing T] [PubEnc P T] (K : RingKit T) (c : Config) (sec : Security) (prog : List (Cmd P T)) (tape : List (Draw T))
    (X Y : List (Fin 3 → T)) (L M : List (Event T)) (hg : go K sec c prog tape X L = some (Y, M)) : ∃ M', M = L ++ M' := by
  induction prog generalizing tape X L with
  | nil =>
    cases tape with
    | cons => cases hg
    | nil => cases hg; exact ⟨[], by simp⟩
  | cons cmd cs ih =>
    have key : ∀ d t, ((step K sec c X cmd d).bind fun (x, e) => go K sec c cs t (X ++ [x]) (L ++ e.toList)) = some (Y, M) →
        ∃ M', M = L ++ M' := by
      intro d t h
      obtain ⟨⟨x, e⟩, -, h⟩ := Option.bind_eq_some_iff.mp h
      obtain ⟨M', rfl⟩ := ih t _ _ h
      exact ⟨e.toList ++ M', by simp⟩
    unfold go at hg
    split at hg
    · exact key _ _ hg
    · cases hg
    · exact key _ _ hg

theorem go_near (c : Config) (hc : ScaleFits 64 c) (hS : 0 < c.encoder.scale) (sec : Security) (prog : List (Cmd (ι → Val) (ι → I64)))
    (tape : List (Draw (ι → I64))) (X Y : List (Fin 3 → ι → I64)) (L M' : List (Event (ι → I64))) (as : List (ι → Estimate))
    (hX : AllNear c.encoder.scale (X.map val) as) (hr : Room c.encoder.scale 2 as prog)
    (hg : go ((powKit 64).tensor ι) sec c prog tape X L = some (Y, L ++ M')) (hn : NoWraps prog M') :
    AllNear c.encoder.scale (Y.map val) (estimate c.encoder.scale 2 as prog) := by
  have hS' : (0 : ℚ) < c.encoder.scale := by exact_mod_cast hS
  induction prog generalizing tape X L M' as with
  | nil =>
    cases tape with
    | cons => cases hg
    | nil =>
      have : X = Y := by injection hg with hg; injection hg
      rw [← this]
      exact hX
  | cons cmd cs ih =>
    have get : ∀ i k, Near c.encoder.scale (val (X.getD i 0) k) (as.getD i 0 k) := by
      intro i k
      have := hX.2 i k
      have e : (X.map val).getD i 0 = val (X.getD i 0) := by
        simp only [List.getD_eq_getElem?_getD, List.getElem?_map]
        cases X[i]? with
        | none => simp [val]
        | some x => rfl
      rwa [e] at this
    obtain ⟨hr1, hr2⟩ := hr
    have next : ∀ d t x e, step ((powKit 64).tensor ι) sec c X cmd d = some (x, e) →
        ((step ((powKit 64).tensor ι) sec c X cmd d).bind fun (x, e) => go ((powKit 64).tensor ι) sec c cs t (X ++ [x]) (L ++ e.toList))
          = some (Y, L ++ M') →
        (∀ M'', M' = e.toList ++ M'' → NoWraps cs M'' ∧ ∀ k, Near c.encoder.scale (val x k) (estimateCmd c.encoder.scale 2 as cmd k)) →
        AllNear c.encoder.scale (Y.map val) (estimate c.encoder.scale 2 as (cmd :: cs)) := by
      intro d t x e h1 h2 h3
      rw [h1] at h2
      have h2 : go ((powKit 64).tensor ι) sec c cs t (X ++ [x]) (L ++ e.toList) = some (Y, L ++ M') := h2
      obtain ⟨M'', hM⟩ := go_prefix _ _ _ _ _ _ _ _ _ h2
      rw [List.append_assoc] at hM
      have hM := List.append_cancel_left hM
      obtain ⟨g1, g2⟩ := h3 M'' hM
      refine ih t (X ++ [x]) (L ++ e.toList) M'' _ ?_ hr2 (by rw [h2, hM, List.append_assoc]) g1
      rw [List.map_append]
      exact hX.push g2
    cases cmd with
    | method f i => exact hr1.elim
    | lin o i j =>
      refine next none tape _ _ rfl hg ?_
      rintro M'' rfl
      refine ⟨hn, fun k => ?_⟩
      have := near_lin o hS' (get i k) (get j k) (hr1 k)
      have e : val (fun l => LinOp.den o (X.getD i 0 l) (X.getD j 0 l)) k = LinOp.den o (val (X.getD i 0) k) (val (X.getD j 0) k) := by
        cases o <;> simp only [val, LinOp.den, Pi.add_apply, Pi.sub_apply] <;> ring
      rw [e]
      exact this
    | linPublic o i v =>
      refine next none tape _ _ rfl hg ?_
      rintro M'' rfl
      refine ⟨hn, fun k => ?_⟩
      have := near_lin o hS' (get i k) (near_given c hS (v k) (hr1 k).1) (hr1 k).2
      have e : val (fun l : Fin 3 => if l = 0 then LinOp.den o (X.getD i 0 0) (PubEnc.enc c v) else X.getD i 0 l) k
          = LinOp.den o (val (X.getD i 0) k) (c.encoder.encode (v k)) := by
        cases o
        · show X.getD i 0 0 k + c.encoder.encode (v k) + X.getD i 0 1 k + X.getD i 0 2 k
            = X.getD i 0 0 k + X.getD i 0 1 k + X.getD i 0 2 k + c.encoder.encode (v k)
          ring
        · show X.getD i 0 0 k - c.encoder.encode (v k) + X.getD i 0 1 k + X.getD i 0 2 k
            = X.getD i 0 0 k + X.getD i 0 1 k + X.getD i 0 2 k - c.encoder.encode (v k)
          ring
      rw [e]
      exact this
    | secret v =>
      cases tape with
      | nil => cases hg
      | cons d tape =>
        cases d with
        | sharing d0 d1 =>
          refine next (some (.sharing d0 d1)) tape _ _ rfl hg ?_
          rintro M'' rfl
          refine ⟨hn, fun k => ?_⟩
          have e : val ![d0, d1 - d0, PubEnc.enc c v - d1] k = c.encoder.encode (v k) := by
            show d0 k + (d1 k - d0 k) + (c.encoder.encode (v k) - d1 k) = _
            ring
          rw [e]
          exact near_given c hS (v k) (hr1 k)
        | product => cases hg
        | trunc => cases hg
    | mul i j =>
      cases tape with
      | nil => cases hg
      | cons d tape =>
        cases d with
        | product f r a b g =>
          refine next (some (.product f r a b g)) tape _ _ rfl hg ?_
          rintro M'' rfl
          obtain ⟨n1, n2⟩ := hn
          refine ⟨n2, fun k => ?_⟩
          obtain ⟨w1, w2⟩ := n1 _ rfl k
          refine near_mul hS' (get i k) (get j k) (hr1 k) ?_
          have := near_cut c hc hS (masked (X.getD i 0) (X.getD j 0) f) r k w1 w2
          rw [masked_val] at this
          exact this
        | sharing => cases hg
        | trunc => cases hg
    | mulPublic i v =>
      cases tape with
      | nil => cases hg
      | cons d tape =>
        cases d with
        | trunc r =>
          refine next (some (.trunc r)) tape _ _ rfl hg ?_
          rintro M'' rfl
          obtain ⟨n1, n2⟩ := hn
          refine ⟨n2, fun k => ?_⟩
          obtain ⟨w1, w2⟩ := n1 _ rfl k
          refine near_mul hS' (get i k) (near_given c hS (v k) (hr1 k).1) (hr1 k).2 ?_
          have := near_cut c hc hS (fun l => X.getD i 0 l * PubEnc.enc c v) r k w1 w2
          have e : val (fun l => X.getD i 0 l * PubEnc.enc c v) k = val (X.getD i 0) k * c.encoder.encode (v k) := by
            show X.getD i 0 0 k * c.encoder.encode (v k) + X.getD i 0 1 k * c.encoder.encode (v k) + X.getD i 0 2 k * c.encoder.encode (v k)
              = (X.getD i 0 0 k + X.getD i 0 1 k + X.getD i 0 2 k) * c.encoder.encode (v k)
            ring
          rw [e] at this
          exact this
        | sharing => cases hg
        | product => cases hg

/-- C78: every program of secrets, sums, public operands and products of fixed point numbers on replicated shares, with semi-honest and
with malicious security and whatever is drawn: if the estimated values have room and the two summands of no product wrap, then every
tensor opens, and what it decodes to is as near to the true value as estimated. -/
theorem C78_replicated_programs [Nonempty ι] {env : Env} {s : Session} (hs : s.Three env) (hr : s.ringSize = 2 ^ 64)
    (hb : 2 ≤ s.config.encoderBase ∨ s.config.encoderPrecision = 0) (hf : s.config.encoderBase ^ s.config.encoderPrecision < 2 ^ 63)
    (prog : List (Cmd (ι → Val) (ι → I64))) (hv : ValidProg 0 prog) (hroom : Room (s.config.encoder.scale : ℚ) 2 [] prog)
    (tape : List (Draw (ι → I64))) (ht : Fits prog tape) :
    ∃ R, run ((powKit 64).tensor ι) env s prog tape State.empty = .ok R ∧ R.tensors.length = prog.length ∧
      (NoWraps prog R.log → ∀ (k : Nat) (a : ι → Estimate), (estimate (s.config.encoder.scale : ℚ) 2 [] prog)[k]? = some a →
        ∃ x w, R.tensors[k]? = some x ∧ x.reconstruct ((powKit 64).tensor ι).ops = .ok w ∧
          ∀ i, ∃ d, s.config.encoder.decode (.long (w i)) = .ok d ∧ |d - (a i).num| ≤ (a i).err) := by
  obtain ⟨u0, u1, u2, p0, p1, p2, c0, c1, c2, hu, -⟩ := three_unpack hs
  have hpos : 0 < s.config.encoder.scale := by
    show 0 < s.config.encoderBase ^ s.config.encoderPrecision
    rcases hb with h | h
    · exact Nat.pow_pos (by omega)
    · rw [h]; norm_num
  have hS' : (0 : ℚ) < s.config.encoder.scale := by exact_mod_cast hpos
  have h1 := run_eq (tensorStd ι) hs hr prog tape [] [] hv
  obtain ⟨Y, M, h2, h3⟩ := go_some ((powKit 64).tensor ι) s.protocol.security s.config prog tape ht [] []
  rw [h2] at h1
  refine ⟨_, h1, by simp [h3], fun hn k a ha => ?_⟩
  have hall := go_near s.config (.inr ⟨hpos, hf⟩) hpos s.protocol.security prog tape [] Y [] M [] allNear_nil hroom (by simpa using h2) hn
  obtain ⟨hl, hnear⟩ := hall
  have hk : k < (estimate (s.config.encoder.scale : ℚ) 2 [] prog).length := (List.getElem?_eq_some_iff.mp ha).1
  have hk' : k < Y.length := by rw [← hl, List.length_map] at hk; exact hk
  have hrec : (rep s ((powKit 64).tensor ι).size s.config Y[k]).reconstruct ((powKit 64).tensor ι).ops = .ok (val Y[k]) := by
    obtain ⟨e, g1, -, g2⟩ := is_reconstruct hs (rep_is (tensorStd ι) ((powKit 64).tensor ι).size hu s.config Y[k])
    rw [g1]
    exact congrArg _ g2
  refine ⟨rep s ((powKit 64).tensor ι).size s.config Y[k], val Y[k], by simp [hk'], hrec, fun i => ?_⟩
  refine ⟨_, C02_decode_exact s.config.encoderBase s.config.encoderPrecision hb hf _, ?_⟩
  have := hnear k i
  simp only [List.getD_eq_getElem?_getD, ha, List.getElem?_map, List.getElem?_eq_getElem hk', Option.map_some, Option.getD_some] at this
  unfold Near at this
  have e : ((val Y[k] i).toInt : ℚ) / ((s.config.encoderBase ^ s.config.encoderPrecision : Nat) : ℚ) - (a i).num
      = (((val Y[k] i).toInt : ℚ) - (a i).num * s.config.encoder.scale) / s.config.encoder.scale := by
    rw [sub_div, mul_div_cancel_right₀ _ hS'.ne']
    rfl
  rw [e, abs_div, abs_of_pos hS', div_le_iff₀ hS']
  exact this

end SyMPC.RProgram

namespace SyMPC.Machine

open FixedPointEncoder (Val)
open Program

variable {Key : Type} {n : Nat}

theorem sure_get (M : Machine Key) (xs : List (MX n)) (hok : ∀ x ∈ xs, M.Ok x) (i : Nat) (hi : i < xs.length) :
    M.sure.sure (lift (pyGet xs i)) fun x => M.Ok x ∧ x.value = (xs.map MPCTensor.value).getD i 0 := by
  apply M.sure_lift
  refine ⟨xs[i], by rw [pyGet_ok hi], hok _ (List.getElem_mem hi), ?_⟩
  simp [hi]

theorem statement_near (M : Machine Key) (hM : M.Fair) (draw : Nat → Nat → Fin n → I64) (xs : List (MX n)) (hok : ∀ x ∈ xs, M.Ok x)
    (as : List (Fin n → Estimate)) (hX : AllNear (M.scale : ℚ) (xs.map MPCTensor.value) as) (c : Cmd (Fin n → Val) (Fin n → I64))
    (hv : Valid xs.length c) (hr : RoomCmd (M.scale : ℚ) as c) :
    M.sure.sure (M.statement draw xs c) fun z => M.Ok z ∧ ∀ k, Near (M.scale : ℚ) (z.value k) (estimateCmd (M.scale : ℚ) 2 as c k) := by
  have hS : (0 : ℚ) < M.scale := by exact_mod_cast hM.pos
  have hsc : (M.session.config.encoder.scale : ℚ) = M.scale := rfl
  have hpos : 0 < M.session.config.encoder.scale := hM.pos
  cases c with
  | method f i => exact hr.elim
  | secret v =>
    apply M.sure_lift
    obtain ⟨z, h1, h2, h3, h4⟩ := ofSecret_ok (T := Fin n → I64) M.env M.session hM.pair.toReady v (draw xs.length)
    have hz : M.Ok z := ⟨h3, h2⟩
    refine ⟨z, h1, hz, fun k => ?_⟩
    rw [value_of hz h4]
    exact near_given M.session.config hpos (v k) (hr k)
  | lin o i j =>
    refine M.sure.bind _ _ _ _ (M.sure_get xs hok i hv.1) ?_
    rintro x ⟨hx, ex⟩
    refine M.sure.bind _ _ _ _ (M.sure_get xs hok j hv.2) ?_
    rintro y ⟨hy, ey⟩
    apply M.sure_lift
    obtain ⟨z, h1, h2, h3⟩ := lin_ok M o x y hx hy
    refine ⟨z, h1, h2, fun k => ?_⟩
    have := near_lin o hS (hX.2 i k) (hX.2 j k) (hr k)
    rw [h3, ex, ey]
    cases o <;> exact this
  | linPublic o i v =>
    refine M.sure.bind _ _ _ _ (M.sure_get xs hok i hv) ?_
    rintro x ⟨hx, ex⟩
    apply M.sure_lift
    obtain ⟨z, h1, h2, h3⟩ := linP_ok M o x v hx
    refine ⟨z, h1, h2, fun k => ?_⟩
    have := near_lin o hS (hX.2 i k) (near_given M.session.config hpos (v k) (hr k).1) (hr k).2
    rw [h3, ex]
    cases o <;> exact this
  | mulPublic i v =>
    refine M.sure.bind _ _ _ _ (M.sure_get xs hok i hv) ?_
    rintro x ⟨hx, ex⟩
    refine mulPublic_ok M hM x v hx _ fun z hz h => ⟨hz, fun k => ?_⟩
    refine near_mul hS (hX.2 i k) (near_given M.session.config hpos (v k) (hr k).1) (hr k).2 ?_
    have h := (h k).1
    rw [ex] at h
    have h' : |(z.value k).toInt * (M.scale : Int) - ((xs.map MPCTensor.value).getD i 0 k * M.session.config.encoder.encode (v k)).toInt|
        ≤ 2 * M.scale := h.trans (by omega)
    exact_mod_cast h'
  | mul i j =>
    refine M.sure.bind _ _ _ _ (M.sure_get xs hok i hv.1) ?_
    rintro x ⟨hx, ex⟩
    refine M.sure.bind _ _ _ _ (M.sure_get xs hok j hv.2) ?_
    rintro y ⟨hy, ey⟩
    refine mulPrivate_ok M hM x y hx hy _ fun z hz h => ⟨hz, fun k => ?_⟩
    refine near_mul hS (hX.2 i k) (hX.2 j k) (hr k) ?_
    have h := h k
    rw [ex, ey] at h
    have h' : |(z.value k).toInt * (M.scale : Int) - ((xs.map MPCTensor.value).getD i 0 k * (xs.map MPCTensor.value).getD j 0 k).toInt|
        ≤ 2 * M.scale := h.trans (by omega)
    exact_mod_cast h'

theorem statements_near (M : Machine Key) (hM : M.Fair) (draw : Nat → Nat → Fin n → I64) (prog : List (Cmd (Fin n → Val) (Fin n → I64)))
    (xs : List (MX n)) (hok : ∀ x ∈ xs, M.Ok x) (as : List (Fin n → Estimate)) (hX : AllNear (M.scale : ℚ) (xs.map MPCTensor.value) as)
    (hv : ValidProg xs.length prog) (hr : Room (M.scale : ℚ) 2 as prog) :
    M.sure.sure (M.statements draw prog xs) fun ys => ys.length = xs.length + prog.length ∧ (∀ y ∈ ys, M.Ok y) ∧
      AllNear (M.scale : ℚ) (ys.map MPCTensor.value) (estimate (M.scale : ℚ) 2 as prog) := by
  induction prog generalizing xs as with
  | nil => exact M.sure.pure _ _ ⟨by simp, hok, hX⟩
  | cons c cs ih =>
    refine M.sure.bind _ _ _ _ (M.statement_near hM draw xs hok as hX c hv.1 hr.1) ?_
    rintro z ⟨hz, hn⟩
    have := ih (xs ++ [z]) (by
      intro x hx
      rcases List.mem_append.mp hx with h | h
      · exact hok x h
      · rw [List.mem_singleton.mp h]; exact hz) (as ++ [estimateCmd (M.scale : ℚ) 2 as c]) (by
        rw [List.map_append]
        exact hX.push hn) (by simpa using hv.2) hr.2
    refine M.sure.mono _ _ _ this ?_
    rintro ys ⟨h1, h2, h3⟩
    exact ⟨by rw [h1]; simp; omega, h2, h3⟩

/-- C78: every program of secrets, sums, public operands and products of fixed point numbers in a two-party session, from stores as they
are after any number of operations and whatever is drawn: if the estimated values have room, the program raises no exception; unless it
is marked because the shares of a product wrapped, every tensor opens, and what it decodes to is as near to the true value as
estimated. -/
theorem _root_.SyMPC.C78_two_party_programs (M : Machine Key) (hM : M.Fair) (hb : 2 ≤ M.session.config.encoderBase ∨ M.session.config.encoderPrecision = 0)
    (draw : Nat → Nat → Fin n → I64) (prog : List (Cmd (Fin n → Val) (Fin n → I64))) (hv : ValidProg 0 prog)
    (hroom : Room (M.scale : ℚ) 2 [] prog) (w : MState Key) (hw : M.Inv w) :
    M.statements draw prog [] w = .error (.inr ()) ∨
    ∃ ys w', M.statements draw prog [] w = .ok (ys, w') ∧ M.Inv w' ∧ ys.length = prog.length ∧
      ∀ (k : Nat) (a : Fin n → Estimate), (estimate (M.scale : ℚ) 2 [] prog)[k]? = some a →
        ∃ x v, ys[k]? = some x ∧ x.reconstruct = .ok v ∧
          ∀ i, ∃ d, M.session.config.encoder.decode (.long (v i)) = .ok d ∧ |d - (a i).num| ≤ (a i).err := by
  have hS : (0 : ℚ) < M.scale := by exact_mod_cast hM.pos
  rcases M.statements_near hM draw prog [] (by simp) [] allNear_nil (by simpa using hv) hroom w hw with h | ⟨ys, w', h1, ⟨h2, h3, h4⟩, h5⟩
  · exact Or.inl h
  · refine Or.inr ⟨ys, w', h1, h5, by simpa using h2, fun k a ha => ?_⟩
    obtain ⟨hl, hnear⟩ := h4
    have hk : k < (estimate (M.scale : ℚ) 2 [] prog).length := (List.getElem?_eq_some_iff.mp ha).1
    have hk' : k < ys.length := by rw [← hl, List.length_map] at hk; exact hk
    refine ⟨ys[k], ys[k].value, by simp [hk'], (h3 _ (List.getElem_mem hk')).value, fun i => ?_⟩
    refine ⟨_, C02_decode_exact _ _ hb (lt_of_le_of_lt hM.small (by norm_num)) _, ?_⟩
    have := hnear k i
    simp only [List.getD_eq_getElem?_getD, ha, List.getElem?_map, List.getElem?_eq_getElem hk', Option.map_some, Option.getD_some] at this
    unfold Near at this
    have e : ((ys[k].value i).toInt : ℚ) / ((M.session.config.encoderBase ^ M.session.config.encoderPrecision : Nat) : ℚ) - (a i).num
        = (((ys[k].value i).toInt : ℚ) - (a i).num * M.scale) / M.scale := by
      rw [sub_div, mul_div_cancel_right₀ _ hS.ne']
      rfl
    rw [e, abs_div, abs_of_pos hS, div_le_iff₀ hS]
    exact this

end SyMPC.Machine

namespace SyMPC.Program

open FixedPointEncoder (Val)

/-! ## Concrete cases -/

/-- `x = MPCTensor([1.5, -2])`, `y = MPCTensor([0.7, 3])`, `z = x * y`, `z = z + [0.25, 1]`, `z = z * [-3, 0.5]`, `z = z - x` -/
def exScaled : List (Cmd (Fin 2 → Val) (Fin 2 → I64)) :=
  [.secret ![.float (3 / 2), .int (-2)], .secret ![.float (7 / 10), .int 3], .mul 0 1, .linPublic .add 2 ![.float (1 / 4), .int 1],
    .mulPublic 3 ![.int (-3), .float (1 / 2)], .lin .sub 4 0]

theorem exScaled_room : Room (65536 : ℚ) 2 [] exScaled := by
  simp only [exScaled, Room, RoomCmd, estimateCmd, Fin.forall_fin_two, given, numOf, Estimate.Room, ProductRoom, Estimate.lin, Estimate.mul,
    LinOp.den, List.nil_append, List.cons_append, List.getD_cons_zero, List.getD_cons_succ, Matrix.cons_val_zero, Matrix.cons_val_one]
  norm_num [abs_of_nonneg, abs_of_neg]

/-- the values of the last tensor are `-5.4` and `-0.5`, and they are off by at most 0.0003 -/
example : ∃ a : Fin 2 → Estimate, (estimate (65536 : ℚ) 2 [] exScaled)[5]? = some a ∧ (a 0).num = -27 / 5 ∧ (a 0).err ≤ 3 / 10000 ∧ (a 1).num = -1 / 2 ∧
    (a 1).err ≤ 3 / 10000 := by
  refine ⟨estimateCmd 65536 2 (estimate 65536 2 [] (exScaled.take 5)) (.lin .sub 4 0), rfl, ?_, ?_, ?_, ?_⟩ <;>
  · simp only [exScaled, estimate, List.take_succ_cons, List.take_zero, estimateCmd, given, numOf, Estimate.lin, Estimate.mul, LinOp.den, List.nil_append, List.cons_append,
      List.getD_cons_zero, List.getD_cons_succ, Matrix.cons_val_zero, Matrix.cons_val_one]
    norm_num [abs_of_nonneg, abs_of_neg]

theorem exScaled_valid : ValidProg 0 exScaled := by simp [exScaled, ValidProg, Valid]

/-- the last tensor of the example in a two-party session, in quanta: -353892 / 65536 is -5.39996 -/
example : ((exMachine.statements (fun t r k => BitVec.ofNat 64 (1000 * t + 10 * r + k)) exScaled [] Machine.start).toOption.map fun r =>
    r.1.map fun x => ((x.value 0).toInt, (x.value 1).toInt)) =
    some [(98304, -131072), (45875, 196608), (68812, -393216), (85196, -327680), (-255588, -163840), (-353892, -32768)] := by
  decide +kernel

/-- the draws of the example with replicated shares -/
def exScaledTape : List (RProgram.Draw (Fin 2 → I64)) :=
  [.sharing ![5, 7] ![100, -3], .sharing ![-11, 13] ![8, 9],
    .product ![![1, 2], ![3, 4], ![5, 6]] ![9, 10] ![![7, 8], ![9, 10], ![11, 12]] ![![13, 14], ![15, 16], ![17, 18]] ![![1, 1], ![2, 2], ![3, 3]],
    .trunc ![99, 98]]

example : Room ((exRSession.config.encoder.scale : Nat) : ℚ) 2 [] exScaled ∧ ValidProg 0 exScaled ∧ RProgram.Fits exScaled exScaledTape ∧
    exRSession.Three exREnv ∧ exMachine.Fair ∧ exMachine.Inv Machine.start := by
  refine ⟨?_, exScaled_valid, rfl, exRThree, exMachine_fair, Machine.inv_start _⟩
  have : ((exRSession.config.encoder.scale : Nat) : ℚ) = 65536 := by norm_num [exRSession, Config.encoder, FixedPointEncoder.new]
  rw [this]
  exact exScaled_room

instance (e : RProgram.Event (Fin 2 → I64)) : Decidable (RProgram.NoWrap e) := by
  unfold RProgram.NoWrap
  infer_instance

/-- no product wraps, and the last tensor of the example on replicated shares in quanta: -353889 / 65536 is -5.39992 -/
example : ((RProgram.run ((powKit 64).tensor (Fin 2)) exREnv exRSession exScaled exScaledTape RProgram.State.empty).toOption.map fun R =>
    (R.log.drop 2 |>.all fun e => decide (RProgram.NoWrap e), R.tensors.map fun x =>
      (x.reconstruct ((powKit 64).tensor (Fin 2)).ops).toOption.map fun v => ((v 0).toInt, (v 1).toInt))) =
    some (true, [some (98304, -131072), some (45875, 196608), some (68811, -393217), some (85195, -327681),
      some (-255585, -163841), some (-353889, -32769)]) := by
  decide +kernel

end SyMPC.Program
