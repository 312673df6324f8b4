import Verif.Model.NProgram
import Verif.Props.WrapsT
import Verif.Props.Accuracy

/-!
# C78: whole programs with fixed point numbers and three or more parties
-/

namespace SyMPC.NProgram

open FixedPointEncoder (Val)
open Program

variable {ι : Type}

/-- what a session with three or more parties must satisfy -/
structure Suits (env : Env) (s : Session) (n : Nat) : Prop where
  live : s.Live env
  ring : s.ringSize = 2 ^ 64
  parties : s.nrParties = n + 3
  many : n + 3 ≤ 2 ^ 24
  base : s.config.encoderBase = 2
  pos : s.config.encoderPrecision ≠ 0
  small : s.config.encoderPrecision ≤ 24

/-- no rare number was drawn for a division, see `Drawn` -/
def AllDrawn (n : Nat) (l : List (Division ι)) : Prop := ∀ d ∈ l, ∀ i, Drawn n d.wraps d.shares i

theorem scale_eq {env : Env} {s : Session} {n : Nat} (h : Suits env s n) :
    ((s.config.encoderBase ^ s.config.encoderPrecision : Nat) : Int) = 2 ^ s.config.encoderPrecision := by
  rw [h.base]
  push_cast
  rfl

/-- the division by the scale of a new tensor -/
theorem truncate_ok {env : Env} {s : Session} {n : Nat} (h : Suits env s n) (op : (ι → I64) →+ (ι → I64) →+ (ι → I64)) (rnd : WrapRandT ι)
    (S : State ι) (B : Program.State (ι → I64)) (hB : Sane env s (fun a b => op a b) B) (z : MPCTensor (ι → I64)) (ts : List (MPCTensor (ι → I64)))
    (hz : B.tensors = ts ++ [z]) :
    ∃ q seen, truncate f32 env s rnd S B = .ok ⟨{ B with tensors := ts ++ [q] }, S.divisions ++ [⟨rnd, z.shares.map (·.tensor), seen⟩]⟩ ∧
      Sane env s (fun a b => op a b) { B with tensors := ts ++ [q] } ∧
      ((∀ i, Drawn (n + 3) rnd (z.shares.map (·.tensor)) i) → ∀ k, |((q.value k).toInt : ℚ) * s.config.encoder.scale - ((z.value k).toInt : ℚ)|
        ≤ (n + 3 : Nat) * s.config.encoder.scale) := by
  have hzm : z ∈ B.tensors := by simp [hz]
  have hwf := hB.wf z hzm
  have hss := hB.sess z hzm
  obtain ⟨q, x', bs, wr, wz, a1, a2, a3, -⟩ := divide_seenT f32 env s h.live n h.parties rnd z hwf hss
    (s.config.encoderBase ^ s.config.encoderPrecision : Nat)
  obtain ⟨seen, a1⟩ : ∃ seen, publicDivideSeen f32 env rnd z (s.config.encoderBase ^ s.config.encoderPrecision : Nat) = .ok (q, seen) := ⟨_, a1⟩
  refine ⟨q, seen, ?_, ⟨?_, ?_, hB.good⟩, fun hd k => ?_⟩
  · unfold truncate
    rw [hz, List.getLast?_concat]
    show (publicDivideSeen _ _ _ _ _ >>= _) = _
    rw [a1, ok_bind, List.dropLast_concat]
    rfl
  · intro y hy
    rcases List.mem_append.mp hy with h' | h'
    · exact hB.wf y (by simp [hz, h'])
    · rw [List.mem_singleton.mp h']; exact a2
  · intro y hy
    rcases List.mem_append.mp hy with h' | h'
    · exact hB.sess y (by simp [hz, h'])
    · rw [List.mem_singleton.mp h']; exact a3
  · obtain ⟨q', v, b1, -, -, b2, b3⟩ := C27_tensors_pow2_partial env s h.live h.ring (by rw [h.parties]; omega) (by rw [h.parties]; exact h.many) h.base h.pos h.small rnd z hwf
      hss _ (wf_value hwf) s.config.encoderPrecision (by have := h.small; omega)
    rw [← scale_eq h, ← publicDivideSeen_fst f32 env rnd z _ (by rw [hss, h.parties]; omega), a1] at b1
    cases b1
    rw [wf_value a2] at b2
    cases b2
    have := b3 k (by rw [h.parties]; exact hd k)
    have hs : (s.config.encoder.scale : ℚ) = ((2 ^ s.config.encoderPrecision : Int) : ℚ) := by
      rw [← scale_eq h]
      rfl
    rw [hs]
    rw [h.parties] at this
    have h2 : |(q.value k).toInt * 2 ^ s.config.encoderPrecision - (z.value k).toInt| ≤ ((n + 3 : Nat) : Int) * 2 ^ s.config.encoderPrecision :=
      this.trans (by rw [mul_sub]; omega)
    exact_mod_cast h2

variable {env : Env} {s : Session} {n : Nat}

theorem step_near (h : Suits env s n) (trunc : Config → (ι → I64) → ι → I64) (d : Draw (n + 2) ι) (S : State ι)
    (hS : Sane env s (fun a b => (AddMonoidHom.mul (R := ι → I64)) a b) S.base) (as : List (ι → Estimate)) (c : Cmd (ι → Val) (ι → I64))
    (hv : Valid S.base.tensors.length c) (hr : RoomCmd (s.config.encoder.scale : ℚ) as c) :
    ∃ S' z, step f32 env s trunc d S c = .ok S' ∧ Sane env s (fun a b => (AddMonoidHom.mul (R := ι → I64)) a b) S'.base ∧
      S'.base.tensors = S.base.tensors ++ [z] ∧ (∃ l, S'.divisions = S.divisions ++ l) ∧
      (AllDrawn (n + 3) S'.divisions → AllNear (s.config.encoder.scale : ℚ) (values S.base) as →
        ∀ k, Near (s.config.encoder.scale : ℚ) (z.value k) (estimateCmd (s.config.encoder.scale : ℚ) (n + 3 : Nat) as c k)) := by
  have hpos : 0 < s.config.encoder.scale := by
    show 0 < s.config.encoderBase ^ s.config.encoderPrecision
    rw [h.base]
    positivity
  have hS' : (0 : ℚ) < s.config.encoder.scale := by exact_mod_cast hpos
  have hn : s.nrParties = (n + 1) + 2 := h.parties
  have linear : ∀ c : Cmd (ι → Val) (ι → I64), Valid S.base.tensors.length c → IsPlain c → Additive c →
      ∃ B z, Program.plain env (fun a b : ι → I64 => a * b) trunc S.base c = .ok B ∧
        Sane env s (fun a b => (AddMonoidHom.mul (R := ι → I64)) a b) B ∧ B.tensors = S.base.tensors ++ [z] ∧
        z.value = evalCmd s.config (fun a b => a * b) (values S.base) c := by
    intro c hv hp ha
    obtain ⟨B, z, h1, h2, -, h4, h5, -⟩ := plain_step env s (AddMonoidHom.mul (R := ι → I64)) trunc S.base hS c hv hp
    exact ⟨B, z, h1, h2, h4, h5 ha⟩
  cases c with
  | method f i => exact hr.elim
  | secret v =>
    obtain ⟨B, h1, h2, h3, -, -⟩ := share_step env s h.live (n + 1) hn (fun a b => (AddMonoidHom.mul (R := ι → I64)) a b) S.base hS v d.sharing
    obtain ⟨z, hz, hval⟩ : ∃ z, B.tensors = S.base.tensors ++ [z] ∧ z.value = PubEnc.enc s.config v := by
      unfold Program.share at h1
      obtain ⟨x, g1, g2, g3, g4⟩ := ofSecret_ok env s h.live.toReady v (extend d.sharing)
      rw [g1, ok_bind] at h1
      cases h1
      rw [wf_value g3] at g4
      exact ⟨x, rfl, Except.ok.inj g4⟩
    refine ⟨{ S with base := B }, z, ?_, h2, hz, ⟨[], by simp⟩, fun _ _ k => ?_⟩
    · simp only [step, h1, ok_bind, pure_eq_ok]
    · rw [hval]
      exact near_given s.config hpos (v k) (hr k)
  | lin o i j =>
    obtain ⟨B, z, h1, h2, h3, h4⟩ := linear (.lin o i j) hv trivial trivial
    refine ⟨{ S with base := B }, z, ?_, h2, h3, ⟨[], by simp⟩, fun _ hX k => ?_⟩
    · simp only [step, h1, ok_bind, pure_eq_ok]
    · rw [h4]
      have := near_lin o hS' (hX.2 i k) (hX.2 j k) (hr k)
      cases o <;> exact this
  | linPublic o i v =>
    obtain ⟨B, z, h1, h2, h3, h4⟩ := linear (.linPublic o i v) hv trivial trivial
    refine ⟨{ S with base := B }, z, ?_, h2, h3, ⟨[], by simp⟩, fun _ hX k => ?_⟩
    · simp only [step, h1, ok_bind, pure_eq_ok]
    · rw [h4]
      have := near_lin o hS' (hX.2 i k) (near_given s.config hpos (v k) (hr k).1) (hr k).2
      cases o <;> exact this
  | mulPublic i v =>
    obtain ⟨B, z, h1, h2, h3, h4⟩ := linear (.mulPublic i v) hv trivial trivial
    obtain ⟨q, seen, g1, g2, g3⟩ := truncate_ok h (AddMonoidHom.mul (R := ι → I64)) d.wraps S B h2 z _ h3
    refine ⟨⟨{ B with tensors := S.base.tensors ++ [q] }, S.divisions ++ [⟨d.wraps, z.shares.map (·.tensor), seen⟩]⟩, q, ?_, g2, rfl, ⟨_, rfl⟩, fun hd hX k => ?_⟩
    · simp only [step, h1, ok_bind, g1]
    · refine near_mul hS' (hX.2 i k) (near_given s.config hpos (v k) (hr k).1) (hr k).2 ?_
      have := g3 (hd ⟨d.wraps, z.shares.map (·.tensor), seen⟩ (by simp)) k
      rw [h4] at this
      exact this
  | mul i j =>
    have hi : S.base.tensors[i]? = some (S.base.tensors[i]'hv.1) := by simp [hv.1]
    have hj : S.base.tensors[j]? = some (S.base.tensors[j]'hv.2) := by simp [hv.2]
    obtain ⟨B, zs, z, h1, h2, -, h3, h4, -, h5, -⟩ := product_step env s h.live (n + 1) hn (AddMonoidHom.mul (R := ι → I64)) trunc S.base hS i j _ _ hi hj
      d.a d.b d.da d.db d.dc
    obtain ⟨q, seen, g1, g2, g3⟩ := truncate_ok h (AddMonoidHom.mul (R := ι → I64)) d.wraps S B h2 z _ h3
    refine ⟨⟨{ B with tensors := S.base.tensors ++ [q] }, S.divisions ++ [⟨d.wraps, z.shares.map (·.tensor), seen⟩]⟩, q, ?_, g2, rfl, ⟨_, rfl⟩, fun hd hX k => ?_⟩
    · have h1 : Program.product env s (fun a b : ι → I64 => a * b) trunc i j d.a d.b d.da d.db d.dc S.base = .ok B := h1
      simp only [step, h1, ok_bind, g1]
    · refine near_mul hS' (hX.2 i k) (hX.2 j k) (hr k) ?_
      have := g3 (hd ⟨d.wraps, z.shares.map (·.tensor), seen⟩ (by simp)) k
      have hz : z.value = (values S.base).getD i 0 * (values S.base).getD j 0 := by
        rw [values_getD S.base i _ hi, values_getD S.base j _ hj]
        unfold MPCTensor.value at h5 ⊢
        rw [h4, if_neg (by omega)]
        exact h5
      rw [hz] at this
      exact this

theorem run_near (h : Suits env s n) (trunc : Config → (ι → I64) → ι → I64) (draws : Nat → Draw (n + 2) ι)
    (prog : List (Cmd (ι → Val) (ι → I64))) (S : State ι) (hS : Sane env s (fun a b => (AddMonoidHom.mul (R := ι → I64)) a b) S.base)
    (as : List (ι → Estimate)) (hv : ValidProg S.base.tensors.length prog) (hr : Room (s.config.encoder.scale : ℚ) (n + 3 : Nat) as prog) :
    ∃ R, run f32 env s trunc draws prog S = .ok R ∧ Sane env s (fun a b => (AddMonoidHom.mul (R := ι → I64)) a b) R.base ∧
      R.base.tensors.length = S.base.tensors.length + prog.length ∧ (∃ l, R.divisions = S.divisions ++ l) ∧
      (AllDrawn (n + 3) R.divisions → AllNear (s.config.encoder.scale : ℚ) (values S.base) as →
        AllNear (s.config.encoder.scale : ℚ) (values R.base) (estimate (s.config.encoder.scale : ℚ) (n + 3 : Nat) as prog)) := by
  induction prog generalizing S as with
  | nil => exact ⟨S, rfl, hS, rfl, ⟨[], by simp⟩, fun _ h => h⟩
  | cons c cs ih =>
    obtain ⟨S', z, h1, h2, h3, ⟨l, h4⟩, h5⟩ := step_near h trunc (draws S.base.tensors.length) S hS as c hv.1 hr.1
    obtain ⟨R, g1, g2, g3, ⟨l', g4⟩, g5⟩ := ih S' h2 (as ++ [estimateCmd (s.config.encoder.scale : ℚ) (n + 3 : Nat) as c])
      (by rw [h3, List.length_append]; exact hv.2) hr.2
    refine ⟨R, ?_, g2, ?_, ⟨l ++ l', by rw [g4, h4, List.append_assoc]⟩, fun hd hX => ?_⟩
    · rw [run, h1]
      exact g1
    · rw [g3, h3]
      simp
      omega
    · refine g5 hd ?_
      have : values S'.base = values S.base ++ [z.value] := by simp [values, h3]
      rw [this]
      exact hX.push (h5 (fun d hd' => hd d (by rw [g4]; exact List.mem_append_left _ hd')) hX)

/-- C78 for three or more parties: every program of secrets, sums, public operands and products of fixed point numbers on additive shares
in the ring `2^64`, with a binary encoder of at most 24 bits and whatever is drawn: if the estimated values have room the program raises
no exception; unless one of the rare numbers excluded by `Drawn` was drawn for a division, every tensor opens, and what it decodes to is
as near to the true value as estimated, with as many quanta for each division as there are parties. -/
theorem _root_.SyMPC.C78_many_parties (env : Env) (s : Session) (n : Nat) (h : Suits env s n) (trunc : Config → (ι → I64) → ι → I64)
    (draws : Nat → Draw (n + 2) ι) (prog : List (Cmd (ι → Val) (ι → I64))) (hv : ValidProg 0 prog)
    (hroom : Room (s.config.encoder.scale : ℚ) s.nrParties [] prog) :
    ∃ R, run f32 env s trunc draws prog State.empty = .ok R ∧ R.base.tensors.length = prog.length ∧
      (AllDrawn s.nrParties R.divisions → ∀ (k : Nat) (a : ι → Estimate),
        (estimate (s.config.encoder.scale : ℚ) s.nrParties [] prog)[k]? = some a →
        ∃ x v, R.base.tensors[k]? = some x ∧ x.reconstruct = .ok v ∧
          ∀ i, ∃ d, s.config.encoder.decode (.long (v i)) = .ok d ∧ |d - (a i).num| ≤ (a i).err) := by
  rw [h.parties] at hroom ⊢
  obtain ⟨R, h1, h2, h3, -, h4⟩ := run_near h trunc draws prog State.empty (Sane.empty env s _) [] hv hroom
  have hb : s.config.encoderBase ^ s.config.encoderPrecision < 2 ^ 63 := by
    rw [h.base]
    exact Nat.pow_lt_pow_right (by norm_num) (lt_of_le_of_lt h.small (by norm_num))
  have hS : (0 : ℚ) < s.config.encoder.scale := by
    have : 0 < s.config.encoderBase ^ s.config.encoderPrecision := by rw [h.base]; positivity
    exact_mod_cast this
  refine ⟨R, h1, by rw [h3]; simp [State.empty, Program.State.empty], fun hd k a ha => ?_⟩
  obtain ⟨hl, hnear⟩ := h4 hd (by simpa [State.empty, Program.State.empty, values] using allNear_nil)
  have hk : k < (estimate (s.config.encoder.scale : ℚ) (n + 3 : Nat) [] prog).length := (List.getElem?_eq_some_iff.mp ha).1
  have hk' : k < R.base.tensors.length := by rw [← hl, values, List.length_map] at hk; exact hk
  refine ⟨R.base.tensors[k], R.base.tensors[k].value, by simp [hk'], wf_value (h2.wf _ (List.getElem_mem hk')), fun i => ?_⟩
  refine ⟨_, C02_decode_exact _ _ (.inl h.base.ge) hb _, ?_⟩
  have := hnear k i
  simp only [List.getD_eq_getElem?_getD, ha, values, List.getElem?_map, List.getElem?_eq_getElem hk', Option.map_some, Option.getD_some] at this
  unfold Near at this
  have e : ((R.base.tensors[k].value i).toInt : ℚ) / ((s.config.encoderBase ^ s.config.encoderPrecision : Nat) : ℚ) - (a i).num
      = (((R.base.tensors[k].value i).toInt : ℚ) - (a i).num * s.config.encoder.scale) / s.config.encoder.scale := by
    rw [sub_div, mul_div_cancel_right₀ _ hS.ne']
    rfl
  rw [e, abs_div, abs_of_pos hS, div_le_iff₀ hS]
  exact this

/-! ## A concrete case -/

theorem exSuits : Suits exEnv exSession 0 := ⟨exLive, rfl, rfl, by norm_num, rfl, by decide, by decide⟩

/-- `x = MPCTensor([1.5, -2])`, `y = x * [-3, 0.7]`, `z = y + x` -/
def exShort : List (Cmd (Fin 2 → Val) (Fin 2 → I64)) :=
  [.secret ![.float (3 / 2), .int (-2)], .mulPublic 0 ![.int (-3), .float (7 / 10)], .lin .add 1 0]

/-- the draws of the example -/
def exDraws : Nat → Draw 2 (Fin 2) := fun _ =>
  ⟨![![5, 6], ![-7, 8]], ![1, 2], ![3, 4], ![![9, 10], ![11, -12]], ![![1, 3], ![5, 7]], ![![2, 4], ![6, 8]],
    ![1000, -2000], ![![0, 7], ![50, 7]], ![![3, 1], ![3, 1]]⟩

theorem exShort_room : Room ((exSession.config.encoder.scale : Nat) : ℚ) exSession.nrParties [] exShort := by
  have e1 : ((exSession.config.encoder.scale : Nat) : ℚ) = 65536 := by norm_num [exSession, Config.encoder, FixedPointEncoder.new]
  have e2 : (exSession.nrParties : ℚ) = 3 := by norm_num [exSession]
  rw [e1, e2]
  simp only [exShort, Room, RoomCmd, estimateCmd, Fin.forall_fin_two, given, numOf, Estimate.Room, ProductRoom, Estimate.lin, Estimate.mul,
    LinOp.den, List.nil_append, List.cons_append, List.getD_cons_zero, List.getD_cons_succ, Matrix.cons_val_zero, Matrix.cons_val_one]
  norm_num [abs_of_nonneg, abs_of_neg]

example : Suits exEnv exSession 0 ∧ ValidProg 0 exShort ∧ Room ((exSession.config.encoder.scale : Nat) : ℚ) exSession.nrParties [] exShort :=
  ⟨exSuits, by simp [exShort, ValidProg, Valid], exShort_room⟩

/-- The shares divided in the example, and the tensors in quanta: -196608 / 65536 is -3, and -222822 / 65536 is
-3.39999. -/
example : (match run f32 exEnv exSession truncTensor exDraws exShort State.empty with
    | .ok R => (R.divisions.map fun (d : Division (Fin 2)) => d.shares.map fun (f : Fin 2 → I64) => ((f 0).toInt, (f 1).toInt),
        R.base.tensors.map fun (x : MPCTensor (Fin 2 → I64)) => ((x.value 0).toInt, (x.value 1).toInt))
    | .error _ => ([], [])) =
    ([[(-983040, 275250), (2359296, 91750), (-19328729088, -6013295000)]], [(98304, -131072), (-294912, -91750), (-196608, -222822)]) := by
  decide +kernel

/-- no rare number is drawn for that division -/
example : ∀ i, Drawn 3 (exDraws 1).wraps [![-983040, 275250], ![2359296, 91750], ![-19328729088, -6013295000]] i := by
  rw [Fin.forall_fin_two]
  constructor <;> refine ⟨by decide +kernel, by decide +kernel, ?_⟩ <;> rintro rs rfl <;>
    exact ⟨noMinPair_of_notMem (by decide +kernel), by decide +kernel, noMinPair_of_notMem (by decide +kernel)⟩

end SyMPC.NProgram
