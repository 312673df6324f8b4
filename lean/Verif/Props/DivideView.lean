import Verif.Lemmas.WrapsT
import Verif.Props.Program

/-!
# C79: what a division shows to the parties

A secret is shared among three or more parties and divided by a public number.  Apart from its share of the secret, every party gets
its part of a random `r` and of the wraps of `r` from the provider and all shares of `z = r + x` from the orchestrator; the first
party also gets the correction, which is made of the opened number of wraps of the shares of the secret.
-/

namespace SyMPC.DivideView

open Program

variable {ι : Type}

/-- The random tensors of one sharing and one division with `m + 1` parties: the masks of the sharing, `r`, the masks of `r` and the
masks of the wraps of `r`. -/
abbrev Draws (ι : Type) (m : Nat) : Type := (Fin m → ι → I64) × (ι → I64) × (Fin m → ι → I64) × (Fin m → ι → I64)

/-- Share a secret tensor and divide it by `d`. -/
def run {m : Nat} (fl : ℚ → ℚ) (env : Env) (s : Session) (v : ι → FixedPointEncoder.Val) (d : Int) (D : Draws ι m) :
    Py (List (ι → I64) × DivideSeen ι) := do
  let x ← MPCTensor.ofSecret env s v (extend D.1)
  let (_, seen) ← publicDivideSeen fl env ⟨D.2.1, extend D.2.2.1, extend D.2.2.2⟩ x d
  return (x.shares.map (·.tensor), seen)

/-- What the parties other than `h` hold and get, the correction left out: their shares of the secret, their parts of `r` and of the
wraps of `r`, and all shares of `z`. -/
def Shows (k h : Nat) (o : Py (List (ι → I64) × DivideSeen ι)) (x r theta z : Nat → ι → I64) : Prop :=
  match o with
  | .ok (xs, seen) => (∀ i < k, i ≠ h → xs[i]? = some (x i) ∧ seen.r[i]? = some (r i) ∧ seen.theta[i]? = some (theta i)) ∧
      ∀ i < k, seen.z[i]? = some (z i)
  | .error _ => False

/-- The first party is shown the correction `c`. -/
def Corrected (o : Py (List (ι → I64) × DivideSeen ι)) (c : ι → FixedPointEncoder.Val) : Prop :=
  match o with
  | .ok (_, seen) => seen.correction = c
  | .error _ => False

theorem masks_unique {T : Type} [AddCommGroup T] (env : Env) (secret : T) (n h : Nat) (hh : h < n + 2) (view : Nat → T) :
    ∃! d : Fin (n + 1) → T, ∀ i < n + 2, i ≠ h → shareTensorOf secret n (extend d) i = view i := by
  obtain ⟨d, h1, h2⟩ := C04_views_independent_partial env secret n h hh view
  have key : ∀ d : Fin (n + 1) → T, (∀ i < n + 2, i ≠ h → shareTensorOf secret n (extend d) i = view i) ↔
      ∀ i < n + 2, i ≠ h → shareValues env secret (n + 2) d i = some (view i) := by
    intro d
    refine forall_congr' fun i => forall_congr' fun hi => forall_congr' fun hne => ?_
    have hv : shareValues env secret (n + 2) d i = some (shareTensorOf secret n (extend d) i) := shareValues_eq env secret n d i hi
    rw [hv, Option.some.injEq]
  exact ⟨d, (key d).mpr h1, fun d' hd' => h2 d' ((key d').mp hd')⟩

/-- the wraps of `r` as the provider counts them -/
def wrapsOf (l : List (ι → I64)) : ι → I64 :=
  match countWrapsT l with
  | .ok w => w
  | .error _ => 0

theorem shows_iff (fl : ℚ → ℚ) (env : Env) (s : Session) (hs : s.Live env) (n : Nat) (hn : s.nrParties = n + 3)
    (v : ι → FixedPointEncoder.Val) (d : Int) (h : Nat) (D : Draws ι (n + 2)) (x r theta z : Nat → ι → I64) :
    Shows (n + 3) h (run fl env s v d D) x r theta z ↔
      (∀ i < n + 3, i ≠ h → shareTensorOf (PubEnc.enc s.config v) (n + 1) (extend D.1) i = x i) ∧
      (∀ i < n + 3, i ≠ h → shareTensorOf D.2.1 (n + 1) (extend D.2.2.1) i = r i) ∧
      (∀ i < n + 3, i ≠ h → shareTensorOf (wrapsOf ((List.range (n + 3)).map (shareTensorOf D.2.1 (n + 1) (extend D.2.2.1)))) (n + 1)
        (extend D.2.2.2) i = theta i) ∧
      ∀ i < n + 3, shareTensorOf D.2.1 (n + 1) (extend D.2.2.1) i
        + shareTensorOf (PubEnc.enc s.config v) (n + 1) (extend D.1) i = z i := by
  obtain ⟨xm, hx, hxs, hxw, -⟩ := ofSecret_ok env s hs.toReady v (extend D.1)
  obtain ⟨res, x', bs, wr, wz, hrun, -, -, -, -, -, -, -, hwr, -⟩ :=
    divide_seenT fl env s hs n hn ⟨D.2.1, extend D.2.2.1, extend D.2.2.2⟩ xm hxw hxs d
  have ht := ofSecret_tensors env s hs.toReady (n + 1) hn v (extend D.1) xm hx
  have hw : wrapsOf ((List.range (n + 3)).map (shareTensorOf D.2.1 (n + 1) (extend D.2.2.1))) = wr := by
    unfold wrapsOf
    rw [hwr]
  dsimp only at hrun
  rw [hw]
  unfold run
  rw [hx, ok_bind, hrun, ok_bind]
  dsimp only
  rw [pure_eq_ok, ht]
  unfold Shows
  dsimp only
  rw [List.zipWith_map, List.zipWith_self]
  constructor
  · rintro ⟨h1, h2⟩
    refine ⟨fun i hi hne => ?_, fun i hi hne => ?_, fun i hi hne => ?_, fun i hi => ?_⟩
    · simpa [hi] using (h1 i hi hne).1
    · simpa [hi] using (h1 i hi hne).2.1
    · simpa [hi] using (h1 i hi hne).2.2
    · simpa [hi] using h2 i hi
  · rintro ⟨h1, h2, h3, h4⟩
    refine ⟨fun i hi hne => ⟨?_, ?_, ?_⟩, fun i hi => ?_⟩
    · simpa [hi] using h1 i hi hne
    · simpa [hi] using h2 i hi hne
    · simpa [hi] using h3 i hi hne
    · simpa [hi] using h4 i hi

/-- the part of one party, from the parts of the others -/
theorem part_eq {T : Type} [AddCommGroup T] (secret : T) (n h : Nat) (hh : h < n + 2) (draws view : Nat → T)
    (hv : ∀ i < n + 2, i ≠ h → shareTensorOf secret n draws i = view i) :
    shareTensorOf secret n draws h + ∑ i ∈ (Finset.range (n + 2)).erase h, view i = secret := by
  have e := sum_shareTensorOf secret n draws
  rw [← Finset.add_sum_erase _ _ (Finset.mem_range.mpr hh)] at e
  have e' : ∑ i ∈ (Finset.range (n + 2)).erase h, view i = ∑ i ∈ (Finset.range (n + 2)).erase h, shareTensorOf secret n draws i := by
    apply Finset.sum_congr rfl
    intro i hi
    rw [Finset.mem_erase, Finset.mem_range] at hi
    exact (hv i hi.2 hi.1).symm
  rw [e', e]

/-- C79 (partial): a secret is shared among three or more parties and divided by any number.  Whatever the secret and whatever the
parties other than `h` hold and get, the correction left out, exactly one choice of the random tensors leads to it: their shares of
the secret, their parts of `r` and of the wraps of `r` and all shares of `z` are independent of the secret.  If `h` is the first party
this is all they get.  What is missing: the correction that the first party gets depends on the secret, see `C79_wraps_leak`; and
the random tensors of the code are not drawn from the whole ring, see `C04_half_range_leaks`. -/
theorem C79_division_views_partial (fl : ℚ → ℚ) (env : Env) (s : Session) (hs : s.Live env) (n : Nat) (hn : s.nrParties = n + 3)
    (v : ι → FixedPointEncoder.Val) (d : Int) (h : Nat) (hh : h < n + 3) (x r theta z : Nat → ι → I64)
    (hz : ∀ i < n + 3, i ≠ h → z i = r i + x i) :
    ∃! D : Draws ι (n + 2), Shows (n + 3) h (run fl env s v d D) x r theta z := by
  obtain ⟨dx, hx1, hx2⟩ := masks_unique env (PubEnc.enc s.config v) (n + 1) h hh x
  let xh : ι → I64 := shareTensorOf (PubEnc.enc s.config v) (n + 1) (extend dx) h
  let ρ : ι → I64 := z h - xh + ∑ i ∈ (Finset.range (n + 3)).erase h, r i
  obtain ⟨dr, hr1, hr2⟩ := masks_unique env ρ (n + 1) h hh r
  obtain ⟨dt, ht1, ht2⟩ := masks_unique env (wrapsOf ((List.range (n + 3)).map (shareTensorOf ρ (n + 1) (extend dr)))) (n + 1) h hh theta
  refine ⟨(dx, ρ, dr, dt), ?_, ?_⟩
  · dsimp only
    rw [shows_iff fl env s hs n hn]
    refine ⟨hx1, hr1, ht1, fun i hi => ?_⟩
    by_cases hih : i = h
    · subst hih
      have e := part_eq ρ (n + 1) i hh _ r hr1
      have : shareTensorOf ρ (n + 1) (extend dr) i = z i - xh := by
        apply add_right_cancel (b := ∑ j ∈ (Finset.range (n + 1 + 2)).erase i, r j)
        rw [e]
      dsimp only
      rw [this]
      exact sub_add_cancel _ _
    · dsimp only
      rw [hr1 i hi hih, hx1 i hi hih, hz i hi hih]
  · rintro ⟨dx', ρ', dr', dt'⟩ hD
    rw [shows_iff fl env s hs n hn] at hD
    obtain ⟨h1, h2, h3, h4⟩ := hD
    dsimp only at h1 h2 h3 h4
    obtain rfl := hx2 dx' h1
    have e := part_eq ρ' (n + 1) h hh _ r h2
    have hρ : ρ' = ρ := by
      rw [← e]
      change _ = z h - xh + _
      congr 1
      rw [← h4 h hh]
      exact (add_sub_cancel_right _ _).symm
    subst hρ
    obtain rfl := hr2 dr' h2
    obtain rfl := ht2 dt' h3
    rfl

/-! ## The correction depends on the secret -/

/-- a secret of one element -/
def exValue (a : Int) : Fin 1 → FixedPointEncoder.Val := fun _ => .int a

/-- the shares that the first two parties hold in the example, the first is the greatest element of the ring -/
def exShares : Nat → Fin 1 → I64 := fun i _ => if i = 0 then BitVec.intMax 64 else 0

/-- the shares of `z` in the example -/
def exZ : Nat → Fin 1 → I64 := fun i _ => if i = 0 then BitVec.intMax 64 else if i = 1 then 0 else BitVec.ofInt 64 (2 ^ 63 - 131071)

/-- random tensors that lead to the example if the secret is -2 -/
def exDraws : Draws (Fin 1) 2 := (fun _ _ => BitVec.intMax 64, 0, 0, 0)

/-- random tensors that lead to the example if the secret is 0 -/
def exDraws0 : Draws (Fin 1) 2 := (fun _ _ => BitVec.intMax 64, fun _ => BitVec.ofInt 64 (-131072), 0, 0)

/-- the number in a float, to compare corrections -/
def exFloat : FixedPointEncoder.Val → ℚ
  | .float q => q
  | _ => 1

instance (k h : Nat) (o : Py (List (Fin 1 → I64) × DivideSeen (Fin 1))) (x r theta z : Nat → Fin 1 → I64) :
    Decidable (Shows k h o x r theta z) := by
  unfold Shows
  cases o <;> infer_instance

/-- C79, the negation: with three parties, the first two of them can tell whether the secret that is divided by two is 0 or -2.  What
they hold and get can be the same for both, but then the correction that the first party gets is not: the correction of a run that
divides -2 comes from no run that divides 0 and looks the same otherwise. -/
theorem C79_wraps_leak :
    ∃ (x r theta z : Nat → Fin 1 → I64) (c : Fin 1 → FixedPointEncoder.Val),
      (∃ D : Draws (Fin 1) 2, Shows 3 2 (run f32 exEnv exSession (exValue (-2)) 2 D) x r theta z ∧
        Corrected (run f32 exEnv exSession (exValue (-2)) 2 D) c) ∧
      (∃ D : Draws (Fin 1) 2, Shows 3 2 (run f32 exEnv exSession (exValue 0) 2 D) x r theta z) ∧
      ¬ ∃ D : Draws (Fin 1) 2, Shows 3 2 (run f32 exEnv exSession (exValue 0) 2 D) x r theta z ∧
        Corrected (run f32 exEnv exSession (exValue 0) 2 D) c := by
  have h0 : Shows 3 2 (run f32 exEnv exSession (exValue 0) 2 exDraws0) exShares 0 0 exZ := by decide +kernel
  have h2 : Shows 3 2 (run f32 exEnv exSession (exValue (-2)) 2 exDraws) exShares 0 0 exZ := by decide +kernel
  have c0 : (match run f32 exEnv exSession (exValue 0) 2 exDraws0 with
      | .ok (_, seen) => exFloat (seen.correction 0)
      | .error _ => 1) = 0 := by decide +kernel
  have c2 : (match run f32 exEnv exSession (exValue (-2)) 2 exDraws with
      | .ok (_, seen) => exFloat (seen.correction 0)
      | .error _ => 0) ≠ 0 := by decide +kernel
  cases hr : run f32 exEnv exSession (exValue (-2)) 2 exDraws with
  | error e => rw [hr] at h2; exact h2.elim
  | ok o =>
    rw [hr] at c2
    refine ⟨exShares, 0, 0, exZ, o.2.correction, ⟨exDraws, h2, ?_⟩, ⟨exDraws0, h0⟩, ?_⟩
    · rw [hr]
      rfl
    · rintro ⟨D, hD, hc⟩
      have hu := C79_division_views_partial f32 exEnv exSession exLive 0 rfl (exValue 0) 2 2 (by omega) exShares 0 0 exZ
        (by intro i hi hne; have : i = 0 ∨ i = 1 := by omega
            rcases this with rfl | rfl <;> decide +kernel)
      obtain rfl := hu.unique hD h0
      cases hr0 : run f32 exEnv exSession (exValue 0) 2 exDraws0 with
      | error e => rw [hr0] at hc; exact hc
      | ok o0 =>
        rw [hr0] at hc c0
        apply c2
        rw [← c0]
        exact congrArg exFloat (congrFun hc 0).symm

/-- C79: the hypotheses of `C79_division_views_partial` hold for three parties, a number that is divided by seven, any of the
parties left out and views that are not zero. -/
example : exSession.Live exEnv ∧ exSession.nrParties = 0 + 3 ∧ ∀ i < 0 + 3, i ≠ 1 →
    (fun (i : Nat) (_ : Fin 1) => BitVec.ofNat 64 (8 * i + 5)) i
      = (fun (i : Nat) (_ : Fin 1) => BitVec.ofNat 64 (3 * i)) i + (fun (i : Nat) (_ : Fin 1) => BitVec.ofNat 64 (5 * i + 5)) i :=
  ⟨exLive, rfl, by decide⟩

end SyMPC.DivideView
