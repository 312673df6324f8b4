import Verif.Lemmas.WrapsT

/-!
# C27: division of tensors with three or more parties
-/

namespace SyMPC

open MPCTensor

variable {ι : Type}

/-- What the division of a tensor assumes of its random numbers at element `i`: the opened number `v + r` does not leave the range,
and no count of wrap-arounds meets the pair `-2^63, -2^63` of `C26_min_pair_missed`. -/
structure Drawn (n : Nat) (rnd : WrapRandT ι) (xs : List (ι → I64)) (i : ι) : Prop where
  low : -2 ^ 63 ≤ (xs.sum i).toInt + (rnd.r i).toInt
  high : (xs.sum i).toInt + (rnd.r i).toInt < 2 ^ 63
  minPair : ∀ rs : List I64, rs = (List.range n).map (fun k => shareTensorOf rnd.r (n - 2) rnd.dr k i) →
    NoMinPair rs ∧ (∀ p ∈ (xs.map (· i)).zip rs, ¬ (p.1 = BitVec.intMin 64 ∧ p.2 = BitVec.intMin 64)) ∧
    NoMinPair (List.zipWith (· + ·) rs (xs.map (· i)))

theorem sum_at (l : List (ι → I64)) (i : ι) : l.sum i = (l.map (· i)).sum := by
  induction l with
  | nil => rfl
  | cons a l ih => rw [List.sum_cons, List.map_cons, List.sum_cons, ← ih]; rfl

theorem mapM_at : ∀ {l : List ((ι → I64) × (ι → I64))} {bs : List (ι → I64)}, l.mapM (fun p => countWrapsT [p.1, p.2]) = .ok bs → ∀ i,
    (l.map fun p => (p.1 i, p.2 i)).mapM (fun p => countWraps [p.1, p.2]) = .ok (bs.map (· i)) := by
  intro l
  induction l with
  | nil =>
    intro bs h i
    cases h
    rfl
  | cons p l ih =>
    intro bs h i
    rw [List.mapM_cons] at h
    obtain ⟨b, h1, h⟩ : ∃ b, countWrapsT [p.1, p.2] = .ok b ∧ _ := ⟨_, rfl, h⟩
    rw [h1, ok_bind] at h
    cases hl : l.mapM (fun p => countWrapsT [p.1, p.2]) with
    | error e => rw [hl] at h; cases h
    | ok bs' =>
      rw [hl] at h
      cases h
      rw [List.map_cons, List.mapM_cons, ih hl i]
      have := countWrapsT_at h1 i
      rw [List.map_cons, List.map_cons, List.map_nil] at this
      rw [this]
      rfl

/-- the number of wrap-arounds of a sum -/
theorem wraps_exist (l : List I64) : ∃ theta : Int, (l.map BitVec.toInt).sum = l.sum.toInt + theta * 2 ^ 64 := by
  induction l with
  | nil => exact ⟨0, by simp⟩
  | cons a l ih =>
    obtain ⟨t, ht⟩ := ih
    have := toInt_add_cases a l.sum
    rw [List.map_cons, List.sum_cons, ht, List.sum_cons]
    exact ⟨t + (if 2 ^ 63 ≤ a.toInt + l.sum.toInt then 1 else if a.toInt + l.sum.toInt < -2 ^ 63 then -1 else 0), by rw [this]; ring⟩

/-- C27 (partial) for tensors: with a binary encoder of at most 24 bits, three or more parties divide a tensor of any size by a power of
two (the scale, after every product) within `n` quanta at every element, unless one of the rare numbers excluded by `Drawn` is drawn
for it.
Missing: other divisors, see `C27_float32_error`. -/
theorem C27_tensors_pow2_partial (env : Env) (s : Session) (hs : s.Live env) (hring : s.ringSize = 2 ^ 64) (h3 : 3 ≤ s.nrParties)
    (hn : s.nrParties ≤ 2 ^ 24) (hb : s.config.encoderBase = 2) (hp0 : s.config.encoderPrecision ≠ 0)
    (hp : s.config.encoderPrecision ≤ 24) (rnd : WrapRandT ι) (x : MPCTensor (ι → I64)) (hx : x.WF env) (hxs : x.session = s)
    (v : ι → I64) (hv : x.reconstruct = .ok v) (k : Nat) (hk : k ≤ 62) :
    ∃ res q, publicDivideT f32 env rnd x (2 ^ k) = .ok res ∧ res.WF env ∧ res.session = s ∧ res.reconstruct = .ok q ∧
      ∀ i, Drawn s.nrParties rnd (x.shares.map (·.tensor)) i → |(q i).toInt * 2 ^ k - (v i).toInt| ≤ s.nrParties * (2 ^ k - 1) := by
  obtain ⟨n, hn3⟩ : ∃ n, s.nrParties = n + 3 := ⟨s.nrParties - 3, by omega⟩
  obtain ⟨res, x', bs, wr, wz, a1, a2, a3, a4, a5, a6, a7, b1, b2, b3, b4⟩ := divide_coreT f32 env s hs n hn3 rnd x hx hxs (2 ^ k)
  refine ⟨res, _, a1, a2, a3, b4, fun i hd => ?_⟩
  have hlen : (x.shares.map (·.tensor)).length = s.nrParties := by
    have := congrArg List.length hx.tags
    rw [hxs] at this
    simpa [hs.ranks] using this
  rw [WF.reconstruct hx] at hv
  have hv : (x.shares.map (·.tensor)).sum = v := by simpa using hv
  generalize hxl : x.shares.map (·.tensor) = xs at *
  obtain ⟨theta, ht⟩ := wraps_exist (xs.map (· i))
  have hxi : (xs.map (· i)).sum = v i := by rw [← sum_at, hv]
  obtain ⟨m1, m2, m3⟩ := hd.minPair _ rfl
  have hrs : (List.range (n + 3)).map (fun k => shareTensorOf rnd.r (n + 1) rnd.dr k i)
      = ((List.range (n + 3)).map (shareTensorOf rnd.r (n + 1) rnd.dr)).map (· i) := by rw [List.map_map]; rfl
  have hn1 : s.nrParties - 2 = n + 1 := by omega
  rw [hn1, hn3, hrs] at m1 m2 m3
  have hrsum : (((List.range (n + 3)).map (shareTensorOf rnd.r (n + 1) rnd.dr)).map (· i)).sum = rnd.r i := by
    rw [← sum_at, sum_range_list]
    exact congrFun (sum_shareTensorOf rnd.r (n + 1) rnd.dr) i
  have c1 := mapM_at b1 i
  rw [show ∀ a b : List (ι → I64), (a.zip b).map (fun p => (p.1 i, p.2 i)) = (a.map (· i)).zip (b.map (· i)) from
    fun a b => by rw [List.zip_map]; rfl] at c1
  have c2 := countWrapsT_at b2 i
  have c3 := countWrapsT_at b3 i
  rw [List.map_zipWith] at c3
  have hth := theta_exact (xs.map (· i)) _ _ (wr i) (wz i) (by simp [hlen, hn3]) (by
      intro h0
      rw [List.map_eq_nil_iff] at h0
      rw [h0] at hlen
      simp at hlen
      omega) c1 c2 (by rw [← c3, List.zipWith_map]; rfl) m1 m2 m3
    (by rw [hrsum, ← sum_at]; exact hd.low) (by rw [hrsum, ← sum_at]; exact hd.high) theta ht
  have hval := pow2_value s.config (xs.map (· i)) (v i) theta k hk (by simpa [hlen] using h3) (by simpa [hlen] using hn) hb hp0 hp
    (by rw [ht, hxi])
  rw [List.length_map, hlen] at hval
  refine Eq.trans_le ?_ hval
  have e1 : (xs.map fun (t : ι → I64) i => floordiv (t i) (BitVec.ofInt 64 (2 ^ k))).sum i
      = ((xs.map (· i)).map (floordiv · (BitVec.ofInt 64 (2 ^ k)))).sum := by
    rw [sum_at, List.map_map, List.map_map]
    rfl
  have e2 : (bs.sum - wr + wz) i = BitVec.ofInt 64 theta := by
    rw [← hth, ← sum_at]
    rfl
  show |((xs.map fun (t : ι → I64) i => floordiv (t i) (BitVec.ofInt 64 (2 ^ k))).sum i
    - PubEnc.enc s.config (wrapCorrection f32 s.config s.ringSize ((bs.sum - wr + wz) i) (2 ^ k))).toInt * 2 ^ k - (v i).toInt| = _
  rw [e1, e2, hring]

/-- a sharing that wraps in its first element and is divided by the scale `2^16` -/
example : (∀ i, Drawn 3 ⟨![1000, -2000], fun k => ![BitVec.ofNat 64 (50 * k), 7], fun _ => ![3, 1]⟩
      [![0x6000000000000000, 5], ![0x6000000000000000, -7], ![0x4000000000640000, 65538]] i) ∧
    (match publicDivideT f32 exEnv ⟨![1000, -2000], fun k => ![BitVec.ofNat 64 (50 * k), 7], fun _ => ![3, 1]⟩
        (exSecret ![0x6000000000000000, 5] ![0x6000000000000000, -7] ![0x4000000000640000, 65538]) (2 ^ 16) with
      | .ok res => res.reconstruct.map fun (v : Fin 2 → I64) => (v 0, v 1)
      | .error e => .error e) = .ok (100, 1) := by
  refine ⟨?_, by decide +kernel⟩
  rw [Fin.forall_fin_two]
  constructor <;> refine ⟨by decide +kernel, by decide +kernel, ?_⟩ <;> rintro rs rfl <;>
    exact ⟨noMinPair_of_notMem (by decide +kernel), by decide +kernel, noMinPair_of_notMem (by decide +kernel)⟩

end SyMPC
