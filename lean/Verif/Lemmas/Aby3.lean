import Verif.Lemmas.FalconStore
import Verif.Model.Aby3
import Mathlib.Data.Nat.Size

namespace SyMPC

variable {E R B RB ι : Type} [CommRing R] [CommRing RB] [Fintype ι]

/-! ## Ints and secrets mixed -/

/-- a value without scaling: a small int or a secret tensor -/
def Term.Is {K : RingKit E} (S : RingSem K.ops R) (s : Session) (t : Term E) (v : R) : Prop :=
  match t with
  | .int z => (K.size = 2 → z = -1 ∨ z = 0 ∨ z = 1) ∧ v = (z : R)
  | .mpc x => x.Plain S s K.size v

/-- a secret tensor -/
def Term.IsMpc {K : RingKit E} (S : RingSem K.ops R) (s : Session) (t : Term E) (v : R) : Prop :=
  ∃ x, t = .mpc x ∧ x.Plain S s K.size v

theorem Term.IsMpc.is {K : RingKit E} {S : RingSem K.ops R} {s : Session} {t : Term E} {v : R} (h : t.IsMpc S s v) :
    t.Is S s v := by
  obtain ⟨x, rfl, h⟩ := h
  exact h

section
variable {env : Env} {s : Session} (hs : s.Three env) {K : RingKit E} {S : RingSem K.ops R} (hK : KitSem K S)
include hs hK

theorem term_addMpc {x : RMPC E} {t : Term E} {v w : R} (hx : x.Plain S s K.size v) (ht : t.Is S s w) :
    ∃ z, Term.addMpc K env x t = .ok z ∧ z.Plain S s K.size (v + w) := by
  cases t with
  | int z =>
    obtain ⟨h2, rfl⟩ := ht
    exact plain_linPublic hs hK .add hx (p := .int z) (k := z) ⟨.inl rfl, h2⟩
  | mpc y => exact plain_lin hs .add hx ht

theorem term_add_right {x : RMPC E} {t : Term E} {v w : R} (hx : x.Plain S s K.size v) (ht : t.Is S s w) :
    ∃ z, Term.add K env t (.mpc x) = .ok (.mpc z) ∧ z.Plain S s K.size (w + v) := by
  cases t with
  | int z =>
    obtain ⟨y, h3, h4⟩ := term_addMpc hs hK (t := .int z) (env := env) hx ht
    exact ⟨y, by simp only [Term.add, h3, ok_bind]; rfl, by rw [add_comm]; exact h4⟩
  | mpc y =>
    obtain ⟨z, h3, h4⟩ := term_addMpc hs hK (t := .mpc x) (env := env) ht hx
    exact ⟨z, by simp only [Term.add, h3, ok_bind]; rfl, h4⟩

variable [DecidableEq E]

theorem term_mulMpc {x : RMPC E} {t : Term E} {v w : R} (hx : x.Plain S s K.size v) (ht : t.Is S s w)
    {rnd : MulRand E E E} (hr : rnd.Ok S S S AddMonoidHom.mul s K.size) :
    ∃ z, Term.mulMpc K env rnd x t = .ok z ∧ z.Plain S s K.size (v * w) := by
  cases t with
  | int z =>
    obtain ⟨h2, rfl⟩ := ht
    exact plain_mulPublic hs hK hx (p := .int z) (k := z) ⟨.inl rfl, h2⟩ _ hr.trunc
  | mpc y => exact plain_mul hs hK hx ht hr

theorem term_mul {a t : Term E} {v w : R} (ha : a.Is S s v) (ht : t.Is S s w)
    {rnd : MulRand E E E} (hr : rnd.Ok S S S AddMonoidHom.mul s K.size) :
    ∃ z, Term.mul K env rnd a t = .ok z ∧ z.Is S s (v * w) := by
  cases a with
  | int a =>
    obtain ⟨h2, rfl⟩ := ha
    cases t with
    | int b =>
      obtain ⟨h3, rfl⟩ := ht
      refine ⟨.int (a * b), rfl, ?_, by push_cast; rfl⟩
      intro hq
      rcases h2 hq with rfl | rfl | rfl <;> rcases h3 hq with rfl | rfl | rfl <;> simp
    | mpc y =>
      obtain ⟨z, h3, h4⟩ := term_mulMpc hs hK ht (t := .int a) (w := (a : R)) ⟨h2, rfl⟩ hr
      exact ⟨.mpc z, by simp only [Term.mul, h3, ok_bind]; rfl, by rw [mul_comm]; exact h4⟩
  | mpc x =>
    obtain ⟨z, h3, h4⟩ := term_mulMpc hs hK ha ht hr
    exact ⟨.mpc z, by simp only [Term.mul, h3, ok_bind]; rfl, h4⟩

theorem term_mul_mpc {a t : Term E} {v w : R} (ha : a.Is S s v) (ht : t.IsMpc S s w)
    {rnd : MulRand E E E} (hr : rnd.Ok S S S AddMonoidHom.mul s K.size) :
    ∃ z, Term.mul K env rnd a t = .ok z ∧ z.IsMpc S s (v * w) := by
  obtain ⟨y, rfl, hy⟩ := ht
  cases a with
  | int a =>
    obtain ⟨h2, rfl⟩ := ha
    obtain ⟨z, h3, h4⟩ := term_mulMpc hs hK hy (t := .int a) (w := (a : R)) ⟨h2, rfl⟩ hr
    exact ⟨.mpc z, by simp only [Term.mul, h3, ok_bind]; rfl, z, rfl, by rw [mul_comm]; exact h4⟩
  | mpc x =>
    obtain ⟨z, h3, h4⟩ := term_mulMpc (t := .mpc y) hs hK ha hy hr
    exact ⟨.mpc z, by simp only [Term.mul, h3, ok_bind]; rfl, z, rfl, h4⟩

end

/-! ## Powers -/

/-- square and multiply computes the power, for any product that respects a relation to the values of a commutative
monoid; the result is of the second kind (a secret) if the exponent is positive -/
theorem powLoop_spec {T M : Type} [CommMonoid M] {mul : Nat → T → T → Py T} {P Q : T → M → Prop}
    (hPQ : ∀ a b v w k, P a v → Q b w → ∃ t, mul k a b = .ok t ∧ Q t (v * w)) (hQ : ∀ a v, Q a v → P a v) :
    ∀ (n : Nat) (result base : T) (ρ β : M) (k : Nat), P result ρ → Q base β →
      ∃ t, Term.powLoop mul n result base k = .ok t ∧ P t (ρ * β ^ n) ∧ (0 < n → Q t (ρ * β ^ n)) := by
  intro n
  induction n using Nat.strongRecOn with
  | _ n ih =>
    intro result base ρ β k hr hb
    rw [Term.powLoop]
    by_cases h0 : n = 0
    · subst h0
      refine ⟨result, by simp, by simpa using hr, fun h => absurd h (lt_irrefl 0)⟩
    · rw [dif_neg h0]
      obtain ⟨b2, e2, q2⟩ := hPQ base base β β (2 * k + 1) (hQ _ _ hb) hb
      have hpow : β ^ n = β ^ (n % 2) * (β * β) ^ (n / 2) := by
        rw [← pow_two, ← pow_mul, ← pow_add]; congr 1; omega
      by_cases h1 : n % 2 = 1
      · obtain ⟨r2, e1, q1⟩ := hPQ result base ρ β (2 * k) hr hb
        obtain ⟨t, h3, h4, h5⟩ := ih (n / 2) (by omega) r2 b2 (ρ * β) (β * β) (k + 1) (hQ _ _ q1) q2
        have hv : ρ * β * (β * β) ^ (n / 2) = ρ * β ^ n := by rw [hpow, h1, pow_one, mul_assoc]
        rw [hv] at h4 h5
        refine ⟨t, by simp only [h1, if_true, e1, ok_bind, e2, h3], h4, fun _ => ?_⟩
        by_cases h6 : 0 < n / 2
        · exact h5 h6
        · have : n / 2 = 0 := by omega
          have hn1 : n = 1 := by omega
          rw [this, Term.powLoop, dif_pos rfl] at h3
          obtain rfl : r2 = t := by simpa using h3
          rw [hn1, pow_one]
          exact q1
      · have h1' : n % 2 = 0 := by omega
        obtain ⟨t, h3, h4, h5⟩ := ih (n / 2) (by omega) result b2 ρ (β * β) (k + 1) hr q2
        have hv : ρ * (β * β) ^ (n / 2) = ρ * β ^ n := by rw [hpow, h1', pow_zero, one_mul]
        rw [hv] at h4 h5
        exact ⟨t, by simp only [h1, if_false, ok_bind, e2, h3], h4, fun _ => h5 (by omega)⟩

theorem term_pow [DecidableEq E] {env : Env} {s : Session} (hs : s.Three env) {K : RingKit E} {S : RingSem K.ops R}
    (hK : KitSem K S) {x : RMPC E} {v : R} (hx : x.Plain S s K.size v) {rnd : Nat → MulRand E E E}
    (hr : ∀ k, (rnd k).Ok S S S AddMonoidHom.mul s K.size) (n : Nat) :
    ∃ t, Term.pow K env rnd x n = .ok t ∧ t.Is S s (v ^ n) ∧ (0 < n → t.IsMpc S s (v ^ n)) := by
  obtain ⟨t, h1, h2, h3⟩ := powLoop_spec (mul := fun k => Term.mul K env (rnd k)) (P := fun t v => t.Is S s v)
    (Q := fun t v => t.IsMpc S s v) (fun a b v w k ha hb => term_mul_mpc hs hK ha hb (hr k)) (fun a v h => h.is)
    n (.int 1) (.mpc x) 1 v 0 ⟨fun _ => by simp, by simp⟩ ⟨x, rfl, hx⟩
  rw [one_mul] at h2 h3
  refine ⟨t, ?_, h2, h3⟩
  rw [Term.pow, if_neg (by omega), Int.toNat_natCast]
  exact h1

/-! ## Decomposition of the shares -/

theorem parallel3 {α β : Type} {c0 c1 c2 : Nat} (f : α → Py β) (a b c : α) :
    parallelExecution [c0, c1, c2] f [a, b, c] = (do
      let x ← f a
      let y ← f b
      let z ← f c
      return [x, y, z]) := by
  simp [parallelExecution, pure_eq_ok, ok_bind]

/-- the three tensors made of the shares of one tensor -/
def splitAt (s : Session) (u0 u1 u2 : Nat) (q : Nat) (c : Config) (zero : E) (k : Nat) (a : E) : RMPC E :=
  let sh : Nat → E := fun i => if i = k then a else zero
  ⟨s, [⟨[sh 0, sh 1], some u0, c, q⟩, ⟨[sh 1, sh 2], some u1, c, q⟩, ⟨[sh 2, sh 0], some u2, c, q⟩]⟩

theorem splitAt_is {I : RingOps E} (S : RingSem I R) {s : Session} {u0 u1 u2 : Nat} (hu : s.rankToUuid = [u0, u1, u2])
    (q : Nat) (c : Config) (zero : E) (hz : S.Valid zero) (h0 : S.den zero = 0) (k : Nat) (hk : k < 3) (a : E)
    (ha : S.Valid a) : (splitAt s u0 u1 u2 q c zero k a).Is S s q c (S.den a) := by
  apply is_of_list S hu
  · dsimp only; split <;> assumption
  · dsimp only; split <;> assumption
  · dsimp only; split <;> assumption
  · obtain rfl | rfl | rfl : k = 0 ∨ k = 1 ∨ k = 2 := by omega
    all_goals simp [h0]

/-- what the three parties get when they decompose their shares of `a`, `b`, `d` -/
theorem decompose3 (zero : E) (cast : B → E) (u : Option Nat) (c : Config) (q : Nat) (a b : B)
    (t : Option Nat) (ct : Config) (qt : Nat) (r : Nat) (hr : r < 3) :
    ABY3.decompose zero cast (r : Int) u c q ⟨[a, b], t, ct, qt⟩ = .ok ((List.range 3).map fun i =>
      ⟨[if i = r then cast a else zero, if i = (r + 1) % 3 then cast b else zero], u, c, q⟩) := by
  simp [ABY3.decompose, pyGet, ok_bind, pure_eq_ok, hr]

/-- the decomposed shares of the three parties for one instance, put together -/
theorem gather3 {env : Env} {s : Session} (hs : s.Three env) {u0 u1 u2 : Nat}
    (q : Nat) (c : Config) (zero : E) (cast : B → E) (a b d : B) (ds : List (List (List (RST E)))) (i : Nat)
    (h : ds.mapM (fun p => pyGet p i) = .ok [
      (List.range 3).map fun i => ⟨[if i = 0 then cast a else zero, if i = 1 then cast b else zero], some u0, c, q⟩,
      (List.range 3).map fun i => ⟨[if i = 1 then cast b else zero, if i = 2 then cast d else zero], some u1, c, q⟩,
      (List.range 3).map fun i => ⟨[if i = 2 then cast d else zero, if i = 0 then cast a else zero], some u2, c, q⟩]) :
    ABY3.gather s ds i = .ok (splitAt s u0 u1 u2 q c zero 0 (cast a), splitAt s u0 u1 u2 q c zero 1 (cast b),
      splitAt s u0 u1 u2 q c zero 2 (cast d)) := by
  unfold ABY3.gather
  rw [h, ok_bind]
  simp [show List.range 3 = [0, 1, 2] from rfl, pyGet, ok_bind, pure_eq_ok, rofShares3 hs, splitAt]

theorem session3 {env : Env} {u : Nat} {p : PartySession} (he : env u = some p) (hn : p.nrParties = 3) (l : List B)
    (c : Config) (q : Nat) : ABY3.decompositionSession env ⟨l, some u, c, q⟩ = .ok p := by
  simp [ABY3.decompositionSession, he, hn]

/-- bit injection before the meaning of bits: the xor of the converted shares -/
theorem injection3 [DecidableEq E] {env : Env} {s : Session} (hs : s.Three env) {K : RingKit E} {S : RingSem K.ops R}
    (hK : KitSem K S) {cast : B → E} (hcast : ∀ b, S.Valid (cast b)) {x : RMPC B} {c : Config} {sh : Nat → B}
    (hx : x.Rep3 s 2 c sh) {rnd1 rnd2 : ABY3.XorRand E} (h1 : rnd1.mul.Ok S S S AddMonoidHom.mul s K.size)
    (h1' : S.Valid rnd1.trunc) (h2 : rnd2.mul.Ok S S S AddMonoidHom.mul s K.size) (h2' : S.Valid rnd2.trunc) :
    ∃ z, ABY3.bitInjection K cast env rnd1 rnd2 x s = .ok z ∧
      z.Plain S s K.size (xorVal K.size (xorVal K.size (S.den (cast (sh 0))) (S.den (cast (sh 1)))) (S.den (cast (sh 2)))) := by
  obtain ⟨u0, u1, u2, p0, p1, p2, c0, c1, c2, hu, hc, e0, e1, e2, r0, r1, r2, n0, n1, n2⟩ := three_unpack hs
  obtain rfl := rep3_list hu hx
  have hz := hK.ofBool false
  have hz0 : S.den (K.ofBool false) = 0 := by rw [hz.2]; simp
  have hcfg : RST.initConfig c 2 = { encoderBase := 1, encoderPrecision := 0 } := rfl
  have hun : Unscaled K.size (RST.initConfig c 2) := by rw [hcfg]; exact .inr (.inr rfl)
  obtain ⟨t, ht⟩ := hK.ring
  have d0 := decompose3 (K.ofBool false) cast (some u0) (RST.initConfig c 2) K.size (sh 0) (sh 1) (some u0) c 2 0 (by omega)
  have d1 := decompose3 (K.ofBool false) cast (some u1) (RST.initConfig c 2) K.size (sh 1) (sh 2) (some u1) c 2 1 (by omega)
  have d2 := decompose3 (K.ofBool false) cast (some u2) (RST.initConfig c 2) K.size (sh 2) (sh 0) (some u2) c 2 2 (by omega)
  have hg := gather3 hs (u0 := u0) (u1 := u1) (u2 := u2) K.size (RST.initConfig c 2) (K.ofBool false) cast (sh 0) (sh 1) (sh 2)
    _ 0 (by rfl :
      ([[_], [_], [_]] : List (List (List (RST E)))).mapM (fun p => pyGet p 0) = _)
  obtain ⟨y, y1, y2⟩ := plain_xor hs hK ⟨_, hun, splitAt_is S hu K.size _ _ hz.1 hz0 0 (by omega) _ (hcast (sh 0))⟩
    ⟨_, hun, splitAt_is S hu K.size _ _ hz.1 hz0 1 (by omega) _ (hcast (sh 1))⟩ h1 _ h1'
  obtain ⟨z, z1, z2⟩ := plain_xor hs hK y2 ⟨_, hun, splitAt_is S hu K.size _ _ hz.1 hz0 2 (by omega) _ (hcast (sh 2))⟩ h2 _ h2'
  refine ⟨z, ?_, z2⟩
  unfold ABY3.bitInjection
  rw [hc, parallel3]
  simp only [pyGet, List.getElem?_cons_zero, ok_bind, ne_eq, not_true_eq_false, if_false, hs.three,
    ABY3.localDecomposition, session3 e0 n0, session3 e1 n1, session3 e2 n2, ht, r0, r1, r2]
  simp only [Nat.cast_zero, Nat.cast_one, Nat.cast_ofNat] at d0 d1 d2
  simp only [d0, d1, d2, ok_bind, pure_eq_ok]
  rw [show ((0 : Nat) + 1) % 3 = 1 from rfl, show ((1 : Nat) + 1) % 3 = 2 from rfl, show ((2 : Nat) + 1) % 3 = 0 from rfl, hg, ok_bind]
  dsimp only
  rw [y1, ok_bind, z1]

/-! ## Shared bits -/

/-- the bit tensor `x` has value `v` -/
def RMPC.Bits (s : Session) (x : RMPC (ι → Bool)) (v : ι → Bool) : Prop :=
  x.Plain (binSem.tensor ι) s 2 (fun j => binDen (v j))

theorem binDen_xor (a b : Bool) : binDen (a ^^ b) = binDen a + binDen b := by revert a b; decide
theorem binDen_and (a b : Bool) : binDen (a && b) = binDen a * binDen b := by revert a b; decide
theorem binDen_ite (a : Bool) : binDen a = if a then 1 else 0 := by revert a; decide

theorem bits_reconstruct {env : Env} {s : Session} (hs : s.Three env) {x : RMPC (ι → Bool)} {v : ι → Bool}
    (hx : x.Bits s v) : x.reconstruct (binOps.tensor ι) = .ok v := by
  obtain ⟨e, h1, h2, h3⟩ := plain_reconstruct hs hx
  rw [h1]
  congr 1
  exact (binSem.tensor ι).inj e v h2 (fun _ => trivial) h3

/-- **bit injection** in any ring -/
theorem injection_bits [DecidableEq E] {env : Env} {s : Session} (hs : s.Three env) {K : RingKit E} {S : RingSem K.ops R}
    (hK : KitSem K S) (h2 : K.size = 2 → (2 : R) = 0) {x : RMPC (ι → Bool)} {v : ι → Bool} (hx : x.Bits s v)
    {rnd1 rnd2 : ABY3.XorRand (ι → E)}
    (k1 : rnd1.mul.Ok (S.tensor ι) (S.tensor ι) (S.tensor ι) AddMonoidHom.mul s K.size) (k1' : (S.tensor ι).Valid rnd1.trunc)
    (k2 : rnd2.mul.Ok (S.tensor ι) (S.tensor ι) (S.tensor ι) AddMonoidHom.mul s K.size)
    (k2' : (S.tensor ι).Valid rnd2.trunc) :
    ∃ z, ABY3.bitInjection (K.tensor ι) (fun t j => K.ofBool (t j)) env rnd1 rnd2 x s = .ok z ∧
      z.Plain (S.tensor ι) s K.size (fun j => if v j then 1 else 0) := by
  obtain ⟨c, hc, sh, hr, -, hv⟩ := hx
  obtain ⟨z, h3, h4⟩ := injection3 (K := K.tensor ι) (S := S.tensor ι) hs (hK.tensor ι)
    (cast := fun t j => K.ofBool (t j)) (fun b j => (hK.ofBool (b j)).1) hr k1 k1' k2 k2'
  refine ⟨z, h3, ?_⟩
  have : (fun j => if v j then (1 : R) else 0) = xorVal (K.tensor ι).size
      (xorVal (K.tensor ι).size ((S.tensor ι).den (fun j => K.ofBool (sh 0 j))) ((S.tensor ι).den (fun j => K.ofBool (sh 1 j))))
      ((S.tensor ι).den (fun j => K.ofBool (sh 2 j))) := by
    funext j
    have hj : binDen (sh 0 j) + binDen (sh 1 j) + binDen (sh 2 j) = binDen (v j) := congrFun hv j
    rw [← binDen_xor, ← binDen_xor] at hj
    have hj' : v j = (sh 0 j ^^ sh 1 j ^^ sh 2 j) := by
      revert hj; generalize sh 0 j = a; generalize sh 1 j = b; generalize sh 2 j = d; generalize v j = e
      revert a b d e; decide
    have point : ∀ (a b : ι → R), xorVal (K.tensor ι).size a b j = xorVal K.size (a j) (b j) := by
      intro a b
      unfold xorVal
      show (if K.size = 2 then _ else _ : ι → R) j = _
      split <;> rfl
    rw [point, point]
    show _ = xorVal K.size (xorVal K.size (S.den (K.ofBool (sh 0 j))) (S.den (K.ofBool (sh 1 j)))) (S.den (K.ofBool (sh 2 j)))
    rw [(hK.ofBool _).2, (hK.ofBool _).2, (hK.ofBool _).2, xorVal_bits h2, xorVal_bits h2, hj']
  rw [this]
  exact h4

/-- a carry: the int 0 or a shared bit -/
def Term.Bits (s : Session) (t : Term (ι → Bool)) (v : ι → Bool) : Prop :=
  Term.Is (K := binKit.tensor ι) (binSem.tensor ι) s t (fun j => binDen (v j))

abbrev BitRand (s : Session) (rnd : MulRand (ι → Bool) (ι → Bool) (ι → Bool)) : Prop :=
  rnd.Ok (binSem.tensor ι) (binSem.tensor ι) (binSem.tensor ι) AddMonoidHom.mul s 2

theorem adderStep_bits {env : Env} {s : Session} (hs : s.Three env) {ab cs : MulRand (ι → Bool) (ι → Bool) (ι → Bool)}
    (hab : BitRand s ab) (hcs : BitRand s cs) {a b : RMPC (ι → Bool)} {c : Term (ι → Bool)} {x y k : ι → Bool}
    (ha : a.Bits s x) (hb : b.Bits s y) (hc : c.Bits s k) :
    ∃ t c', ABY3.adderStep (binKit.tensor ι) env ab cs a b c = .ok (t, c') ∧ t.Bits s (fun j => x j ^^ y j ^^ k j) ∧
      c'.Bits s (fun j => (x j && y j) ^^ (k j && (x j ^^ y j))) := by
  have hK := binKitSem.tensor ι
  obtain ⟨t, t1, t2⟩ := plain_lin hs .add ha hb
  obtain ⟨m, m1, m2⟩ := plain_mul (K := binKit.tensor ι) (S := binSem.tensor ι) hs hK ha hb hab
  obtain ⟨n, n1, n2⟩ := term_mul_mpc (K := binKit.tensor ι) (S := binSem.tensor ι) hs hK hc ⟨t, rfl, t2⟩ hcs
  obtain ⟨w, w1, w2⟩ := term_addMpc (K := binKit.tensor ι) (S := binSem.tensor ι) hs hK (env := env) m2 n2.is
  obtain ⟨r, r1, r2⟩ := term_addMpc (K := binKit.tensor ι) (S := binSem.tensor ι) hs hK (env := env) t2 hc
  refine ⟨r, .mpc w, ?_, ?_, ?_⟩
  · unfold ABY3.adderStep
    have t1' : RMPC.privateLin (binKit.tensor ι).ops .add a b = .ok t := t1
    rw [t1', ok_bind]
    rw [r1, ok_bind, m1, ok_bind, ok_bind, n1, ok_bind, w1, ok_bind]
    rfl
  · have : (fun j => binDen (x j ^^ y j ^^ k j)) = LinOp.den .add (fun j => binDen (x j)) (fun j => binDen (y j)) + fun j => binDen (k j) := by
      funext j; simp [LinOp.den, binDen_xor, add_assoc]
    unfold RMPC.Bits
    rw [this]
    exact r2
  · have : (fun j => binDen ((x j && y j) ^^ (k j && (x j ^^ y j)))) = (fun j => binDen (x j)) * (fun j => binDen (y j)) +
        (fun j => binDen (k j)) * LinOp.den .add (fun j => binDen (x j)) (fun j => binDen (y j)) := by
      funext j; simp [LinOp.den, binDen_xor, binDen_and]
    unfold Term.Bits
    rw [this]
    exact w2

theorem adderLoop_bits {w : Nat} {env : Env} {s : Session} (hs : s.Three env)
    {rnd : Nat → MulRand (ι → Bool) (ι → Bool) (ι → Bool) × MulRand (ι → Bool) (ι → Bool) (ι → Bool)}
    (hr : ∀ i < w, BitRand s (rnd i).1 ∧ BitRand s (rnd i).2) {as bs : List (RMPC (ι → Bool))} {X Y : ι → BitVec w}
    (ha : ∀ i < w, ∃ a, as[i]? = some a ∧ a.Bits s (fun j => (X j).getLsbD i))
    (hb : ∀ i < w, ∃ b, bs[i]? = some b ∧ b.Bits s (fun j => (Y j).getLsbD i)) :
    ∀ (n idx : Nat) (c : Term (ι → Bool)), idx + n = w → c.Bits s (fun j => BitVec.carry idx (X j) (Y j) false) →
      ∃ l, ABY3.adderLoop (binKit.tensor ι) env rnd as bs n idx c = .ok l ∧ l.length = n ∧
        ∀ k < n, ∃ z, l[k]? = some z ∧ z.Bits s (fun j => (X j + Y j).getLsbD (idx + k)) := by
  intro n
  induction n with
  | zero => intro idx c _ _; exact ⟨[], rfl, rfl, by intro k hk; omega⟩
  | succ n ih =>
    intro idx c hidx hc
    obtain ⟨a, a1, a2⟩ := ha idx (by omega)
    obtain ⟨b, b1, b2⟩ := hb idx (by omega)
    obtain ⟨h1, h2⟩ := hr idx (by omega)
    obtain ⟨t, c', e, ht, hc'⟩ := adderStep_bits (env := env) hs h1 h2 a2 b2 hc
    have hcarry : (fun j => ((X j).getLsbD idx && (Y j).getLsbD idx) ^^
        (BitVec.carry idx (X j) (Y j) false && ((X j).getLsbD idx ^^ (Y j).getLsbD idx)))
        = fun j => BitVec.carry (idx + 1) (X j) (Y j) false := by
      funext j
      rw [BitVec.carry_succ]
      generalize (X j).getLsbD idx = p; generalize (Y j).getLsbD idx = q
      generalize BitVec.carry idx (X j) (Y j) false = r
      revert p q r; decide
    rw [hcarry] at hc'
    obtain ⟨l, l1, l2, l3⟩ := ih (idx + 1) c' (by omega) hc'
    refine ⟨t :: l, ?_, by simp [l2], ?_⟩
    · simp only [ABY3.adderLoop, pyGet, a1, b1, ok_bind, e, l1]
      rfl
    · intro k hk
      cases k with
      | zero =>
        refine ⟨t, rfl, ?_⟩
        have : (fun j => (X j + Y j).getLsbD (idx + 0)) =
            fun j => (X j).getLsbD idx ^^ (Y j).getLsbD idx ^^ BitVec.carry idx (X j) (Y j) false := by
          funext j
          rw [Nat.add_zero, BitVec.getLsbD_add (by omega), Bool.xor_assoc]
        rw [this]
        exact ht
      | succ k =>
        obtain ⟨z, z1, z2⟩ := l3 k (by omega)
        exact ⟨z, by simpa using z1, by rw [show idx + (k + 1) = idx + 1 + k by omega]; exact z2⟩

theorem getNrBits_pow (w : Nat) : getNrBits (2 ^ w) = w := by
  unfold getNrBits
  have hpos : 0 < 2 ^ w := by positivity
  apply le_antisymm
  · rw [Nat.size_le]; omega
  · by_contra h
    push Not at h
    have : 2 ^ w - 1 < 2 ^ (w - 1) := by
      rw [← Nat.size_le]; omega
    have h2 : 2 ^ w = 2 * 2 ^ (w - 1) := by
      rw [← pow_succ']; congr 1; omega
    have := Nat.one_le_two_pow (n := w - 1)
    omega

theorem fullAdder_bits {w : Nat} {env : Env} {s : Session} (hs : s.Three env) (hw : s.ringSize = 2 ^ w)
    {rnd : Nat → MulRand (ι → Bool) (ι → Bool) (ι → Bool) × MulRand (ι → Bool) (ι → Bool) (ι → Bool)}
    (hr : ∀ i < w, BitRand s (rnd i).1 ∧ BitRand s (rnd i).2) {as bs : List (RMPC (ι → Bool))} {X Y : ι → BitVec w}
    (ha : ∀ i < w, ∃ a, as[i]? = some a ∧ a.Bits s (fun j => (X j).getLsbD i))
    (hb : ∀ i < w, ∃ b, bs[i]? = some b ∧ b.Bits s (fun j => (Y j).getLsbD i)) :
    ∃ l, ABY3.fullAdder (binKit.tensor ι) env rnd as bs s = .ok l ∧ l.length = w ∧
      ∀ k < w, ∃ z, l[k]? = some z ∧ z.Bits s (fun j => (X j + Y j).getLsbD k) := by
  have hc : Term.Bits s (.int 0 : Term (ι → Bool)) (fun j => BitVec.carry 0 (X j) (Y j) false) := by
    refine ⟨fun _ => .inr (.inl rfl), ?_⟩
    funext j
    show binDen (BitVec.carry 0 (X j) (Y j) false) = _
    rw [BitVec.carry_zero]
    simp [binDen]
  obtain ⟨l, l1, l2, l3⟩ := adderLoop_bits (env := env) hs hr ha hb w 0 (.int 0) (by omega) hc
  refine ⟨l, ?_, l2, by simpa using l3⟩
  rw [ABY3.fullAdder, hw, getNrBits_pow, l1]

/-- the bit under a mask with one bit -/
theorem mask_bit {w : Nat} (x : BitVec w) {i : Nat} (hi : i < w) : decide ((x &&& (1#w <<< i)) ≠ 0) = x.getLsbD i := by
  have h1 : 1#w <<< i = BitVec.twoPow w i := by rw [BitVec.twoPow_eq]; 
  rw [h1, BitVec.and_twoPow]
  cases hb : x.getLsbD i with
  | false => simp
  | true =>
    simp only [if_true, decide_eq_true_iff]
    intro h0
    have := congrArg (fun t => BitVec.getLsbD t i) h0
    simp [hi] at this

/-! ## Bit decomposition -/

omit [Fintype ι] in
theorem decompositionBits3 {w : Nat} {env : Env} {u : Nat} {p : PartySession} (he : env u = some p) (hn : p.nrParties = 3)
    (hq : p.ringSize = 2 ^ w) (r : Nat) (hr : r < 3) (hrank : p.rank = r) (a b : ι → BitVec w) (c : Config) :
    ABY3.localDecompositionBits (fun _ => false) id env 2 (⟨[a, b], some u, c, 2 ^ w⟩ : RST (ι → BitVec w))
      = .ok ((List.range w).map fun i => (List.range 3).map fun k =>
        (⟨[if k = r then fun j => (a j).getLsbD i else fun _ => false,
          if k = (r + 1) % 3 then fun j => (b j).getLsbD i else fun _ => false], some u, RST.initConfig c (2 ^ w), 2⟩ : RST (ι → Bool))) := by
  unfold ABY3.localDecompositionBits
  rw [session3 he hn, ok_bind, show getTypeFromRing 2 = .ok .bool from rfl, ok_bind, hq, getNrBits_pow]
  have h1 : (List.range w).mapM (fun i => (⟨[a, b], some u, c, 2 ^ w⟩ : RST (ι → BitVec w)).bitExtraction i)
      = .ok ((List.range w).map fun i => ⟨[fun j => (a j).getLsbD i, fun j => (b j).getLsbD i], some u,
        { encoderBase := 1, encoderPrecision := 0 }, 2⟩) := by
    apply mapM_ok
    intro i hi
    have hi := List.mem_range.mp hi
    simp only [RST.bitExtraction, getNrBits_pow]
    rw [if_neg (by omega)]
    simp only [mask_bit _ hi, List.map_cons, List.map_nil]
    rfl
  rw [h1, ok_bind]
  rw [List.mapM_map]
  apply mapM_ok
  intro i _
  rw [hrank]
  exact decompose3 (fun _ => false) id (some u) (RST.initConfig c (2 ^ w)) 2 _ _ _ _ _ r hr

theorem decomposition3 {w : Nat} {env : Env} {s : Session} (hs : s.Three env) (hw : s.ringSize = 2 ^ w)
    (hp : ∀ u ∈ s.rankToUuid, ∀ p, env u = some p → p.ringSize = 2 ^ w)
    {rnd1 rnd2 : Nat → MulRand (ι → Bool) (ι → Bool) (ι → Bool) × MulRand (ι → Bool) (ι → Bool) (ι → Bool)}
    (h1 : ∀ i < w, BitRand s (rnd1 i).1 ∧ BitRand s (rnd1 i).2) (h2 : ∀ i < w, BitRand s (rnd2 i).1 ∧ BitRand s (rnd2 i).2)
    {x : RMPC (ι → BitVec w)} {c : Config} {v : ι → BitVec w} (hx : x.Is ((powSem w).tensor ι) s (2 ^ w) c v) :
    ∃ l, ABY3.bitDecomposition env rnd1 rnd2 x s = .ok l ∧ l.length = w ∧
      ∀ i < w, ∃ z, l[i]? = some z ∧ z.Bits s (fun j => (v j).getLsbD i) := by
  obtain ⟨u0, u1, u2, p0, p1, p2, c0, c1, c2, hu, hc, e0, e1, e2, r0, r1, r2, n0, n1, n2⟩ := three_unpack hs
  rw [hu] at hp
  have q0 := hp u0 (by simp) p0 e0
  have q1 := hp u1 (by simp) p1 e1
  have q2 := hp u2 (by simp) p2 e2
  obtain ⟨a, b, d, rfl, -, -, -, hv⟩ := is_unpack hu hx
  have hv : v = fun j => a j + b j + d j := by rw [← hv]; rfl
  have D0 := decompositionBits3 e0 n0 q0 0 (by omega) r0 a b c
  have D1 := decompositionBits3 e1 n1 q1 1 (by omega) r1 b d c
  have D2 := decompositionBits3 e2 n2 q2 2 (by omega) r2 d a c
  rw [show ((0 : Nat) + 1) % 3 = 1 from rfl] at D0
  rw [show ((1 : Nat) + 1) % 3 = 2 from rfl] at D1
  rw [show ((2 : Nat) + 1) % 3 = 0 from rfl] at D2
  set L0 := (List.range w).map fun i => (List.range 3).map fun k =>
        (⟨[if k = 0 then fun j => (a j).getLsbD i else fun _ => false,
          if k = 1 then fun j => (b j).getLsbD i else fun _ => false], some u0, RST.initConfig c (2 ^ w), 2⟩ : RST (ι → Bool))
    with hL0
  set L1 := (List.range w).map fun i => (List.range 3).map fun k =>
        (⟨[if k = 1 then fun j => (b j).getLsbD i else fun _ => false,
          if k = 2 then fun j => (d j).getLsbD i else fun _ => false], some u1, RST.initConfig c (2 ^ w), 2⟩ : RST (ι → Bool))
    with hL1
  set L2 := (List.range w).map fun i => (List.range 3).map fun k =>
        (⟨[if k = 2 then fun j => (d j).getLsbD i else fun _ => false,
          if k = 0 then fun j => (a j).getLsbD i else fun _ => false], some u2, RST.initConfig c (2 ^ w), 2⟩ : RST (ι → Bool))
    with hL2
  have hget : ∀ {T : Type} (f : Nat → T) i, i < w → pyGet ((List.range w).map f) i = .ok (f i) := by
    intro T f i hi
    simp [pyGet, hi]
  have hg : (List.range w).mapM (fun i => ABY3.gather s [L0, L1, L2] i) = .ok ((List.range w).map fun i =>
      (splitAt s u0 u1 u2 2 (RST.initConfig c (2 ^ w)) (fun _ => false) 0 (fun j => (a j).getLsbD i),
        splitAt s u0 u1 u2 2 (RST.initConfig c (2 ^ w)) (fun _ => false) 1 (fun j => (b j).getLsbD i),
        splitAt s u0 u1 u2 2 (RST.initConfig c (2 ^ w)) (fun _ => false) 2 (fun j => (d j).getLsbD i))) := by
    apply mapM_ok
    intro i hi
    have hi := List.mem_range.mp hi
    refine gather3 (E := ι → Bool) hs 2 (RST.initConfig c (2 ^ w)) (fun _ => false) id (fun j => (a j).getLsbD i)
      (fun j => (b j).getLsbD i) (fun j => (d j).getLsbD i) [L0, L1, L2] i ?_
    simp only [List.mapM_cons, List.mapM_nil, hL0, hL1, hL2, hget _ i hi, ok_bind, pure_eq_ok, id]
  have hbits : ∀ (k : Nat), k < 3 → ∀ (t : ι → Bool),
      (splitAt s u0 u1 u2 2 (RST.initConfig c (2 ^ w)) (fun _ => false) k t).Bits s t := fun k hk t =>
    ⟨_, .inl rfl, splitAt_is (binSem.tensor ι) hu 2 _ _ (fun _ => trivial) (by funext j; rfl) k hk t (fun _ => trivial)⟩
  obtain ⟨x12, k1, k2, k3⟩ := fullAdder_bits (env := env) (X := a) (Y := b) hs hw h1
    (as := (List.range w).map fun i => splitAt s u0 u1 u2 2 (RST.initConfig c (2 ^ w)) (fun _ => false) 0 (fun j => (a j).getLsbD i))
    (bs := (List.range w).map fun i => splitAt s u0 u1 u2 2 (RST.initConfig c (2 ^ w)) (fun _ => false) 1 (fun j => (b j).getLsbD i))
    (fun i hi => ⟨_, by rw [List.getElem?_map, List.getElem?_range hi]; rfl, hbits 0 (by omega) _⟩)
    (fun i hi => ⟨_, by rw [List.getElem?_map, List.getElem?_range hi]; rfl, hbits 1 (by omega) _⟩)
  obtain ⟨l, m1, m2, m3⟩ := fullAdder_bits (env := env) (X := fun j => a j + b j) (Y := d) hs hw h2 (as := x12)
    (bs := (List.range w).map fun i => splitAt s u0 u1 u2 2 (RST.initConfig c (2 ^ w)) (fun _ => false) 2 (fun j => (d j).getLsbD i))
    k3 (fun i hi => ⟨_, by rw [List.getElem?_map, List.getElem?_range hi]; rfl, hbits 2 (by omega) _⟩)
  refine ⟨l, ?_, m2, by rw [hv]; exact m3⟩
  unfold ABY3.bitDecomposition
  rw [hc, parallel3, D0, D1, D2]
  simp only [ok_bind, pure_eq_ok, List.headD_cons, hL0, List.length_map, List.length_range]
  rw [← hL0, hg]
  simp only [ok_bind, List.map_map]
  rw [show ((fun x : RMPC (ι → Bool) × RMPC (ι → Bool) × RMPC (ι → Bool) => x.1) ∘ fun i =>
    (splitAt s u0 u1 u2 2 (RST.initConfig c (2 ^ w)) (fun _ => false) 0 (fun j => (a j).getLsbD i),
        splitAt s u0 u1 u2 2 (RST.initConfig c (2 ^ w)) (fun _ => false) 1 (fun j => (b j).getLsbD i),
        splitAt s u0 u1 u2 2 (RST.initConfig c (2 ^ w)) (fun _ => false) 2 (fun j => (d j).getLsbD i)))
    = fun i => splitAt s u0 u1 u2 2 (RST.initConfig c (2 ^ w)) (fun _ => false) 0 (fun j => (a j).getLsbD i) from rfl]
  refine (congrArg (· >>= _) k1).trans ?_
  rw [ok_bind]
  exact m1

end SyMPC
