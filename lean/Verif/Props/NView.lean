import Verif.Props.NProgram
import Verif.Props.DivideView

/-!
# C79: what whole programs with three or more parties show to the parties

Programs of fixed point numbers, with a division by the scale after each product.  The first party gets the corrections of the
divisions, which depend on the secrets (`C79_wraps_leak`); all other parties together learn nothing.
-/

namespace SyMPC.NProgram

open FixedPointEncoder (Val)
open Program DivideView

variable {ι : Type}

/-- All that the parties other than the first hold and get: their shares of the secrets, their parts of the triples and the opened
values of the products, and for every division their parts of `r` and of its wraps and all shares of `z`. -/
def look (S : State ι) : List (Event (ι → I64)) × List (List (ι → I64) × List (ι → I64) × List (ι → I64)) :=
  (S.base.log.map (hide 0), S.divisions.map fun d => (d.seen.r.eraseIdx 0, d.seen.theta.eraseIdx 0, d.seen.z))

/-- the same random tensors, as far as the statement uses them -/
def SameDraw {m : Nat} (c : Cmd (ι → Val) (ι → I64)) (d d' : Draw m ι) : Prop :=
  match c with
  | .secret _ => d.sharing = d'.sharing
  | .mul _ _ => d.a = d'.a ∧ d.b = d'.b ∧ d.da = d'.da ∧ d.db = d'.db ∧ d.dc = d'.dc ∧ d.r = d'.r ∧ d.dr = d'.dr ∧ d.dt = d'.dt
  | .mulPublic _ _ => d.r = d'.r ∧ d.dr = d'.dr ∧ d.dt = d'.dt
  | _ => True

/-- what is seen of a division of the shares `xs` -/
structure Saw (n : Nat) (r : ι → I64) (dr dt : Fin (n + 2) → ι → I64) (xs : List (ι → I64)) (seen : DivideSeen ι) : Prop where
  r : seen.r = (List.range (n + 3)).map (shareTensorOf r (n + 1) (extend dr))
  theta : seen.theta = (List.range (n + 3)).map (shareTensorOf (wrapsOf seen.r) (n + 1) (extend dt))
  z : seen.z = List.zipWith (· + ·) seen.r xs

theorem Saw.length {n : Nat} {r : ι → I64} {dr dt : Fin (n + 2) → ι → I64} {xs : List (ι → I64)} {seen : DivideSeen ι}
    (h : Saw n r dr dt xs seen) : seen.r.length = n + 3 := by
  rw [h.r]
  simp

theorem Saw.sum {n : Nat} {r : ι → I64} {dr dt : Fin (n + 2) → ι → I64} {xs : List (ι → I64)} {seen : DivideSeen ι}
    (h : Saw n r dr dt xs seen) : seen.r.sum = r := by
  rw [h.r, sum_range_list]
  exact sum_shareTensorOf r (n + 1) (extend dr)

theorem zipWith_add_cancel {T : Type} [AddCommGroup T] (a b : List T) (h : a.length ≤ b.length) :
    List.zipWith (· - ·) (List.zipWith (· + ·) a b) b = a := by
  induction a generalizing b with
  | nil => rfl
  | cons x a ih =>
    cases b with
    | nil => simp at h
    | cons y b => simpa using ih b (by simpa using h)

theorem zipWith_sub_cancel {T : Type} [AddCommGroup T] (a b : List T) (h : a.length ≤ b.length) :
    List.zipWith (· + ·) (List.zipWith (· - ·) a b) b = a := by
  induction a generalizing b with
  | nil => rfl
  | cons x a ih =>
    cases b with
    | nil => simp at h
    | cons y b => simpa using ih b (by simpa using h)

/-- the random tensors of a division are known from the shares divided and what the others see -/
theorem saw_unique {n : Nat} {r r' : ι → I64} {dr dt dr' dt' : Fin (n + 2) → ι → I64} {xs : List (ι → I64)} {seen seen' : DivideSeen ι}
    (env : Env) (hx : xs.length = n + 3) (h : Saw n r dr dt xs seen) (h' : Saw n r' dr' dt' xs seen')
    (h1 : seen.theta.eraseIdx 0 = seen'.theta.eraseIdx 0) (h2 : seen.z = seen'.z) : r = r' ∧ dr = dr' ∧ dt = dt' := by
  have hr : seen.r = seen'.r := by
    rw [← zipWith_add_cancel seen.r xs (by rw [h.length, hx]), ← h.z, h2, h'.z, zipWith_add_cancel _ _ (by rw [h'.length, hx])]
  have hr' : r = r' := by rw [← h.sum, hr, h'.sum]
  subst hr'
  have hd : dr = dr' := by
    refine (draws_unique env r (n + 1) 0 (by omega) (seen.r.eraseIdx 0) ?_).unique ?_ ?_
    · rw [List.length_eraseIdx_of_lt (by rw [h.length]; omega), h.length]
      omega
    · rw [h.r]
    · rw [hr, h'.r]
  refine ⟨rfl, hd, ?_⟩
  refine (draws_unique env (wrapsOf seen.r) (n + 1) 0 (by omega) (seen.theta.eraseIdx 0) ?_).unique ?_ ?_
  · rw [h.theta, List.length_eraseIdx_of_lt (by simp)]
    simp
  · rw [← h.theta]
  · rw [h1, hr, ← h'.theta]

/-- random tensors that make the division of other shares look the same -/
theorem saw_exists {n : Nat} {r : ι → I64} {dr dt : Fin (n + 2) → ι → I64} {xs ys : List (ι → I64)} {seen : DivideSeen ι}
    (env : Env) (hx : xs.length = n + 3) (hy : ys.length = n + 3) (he : xs.eraseIdx 0 = ys.eraseIdx 0) (h : Saw n r dr dt xs seen) :
    ∃ r' dr' dt', ∀ seen', Saw n r' dr' dt' ys seen' →
      seen'.r.eraseIdx 0 = seen.r.eraseIdx 0 ∧ seen'.theta.eraseIdx 0 = seen.theta.eraseIdx 0 ∧ seen'.z = seen.z := by
  let R : List (ι → I64) := List.zipWith (· - ·) seen.z ys
  have hzl : seen.z.length = n + 3 := by
    rw [h.z, List.length_zipWith, h.length, hx]
    omega
  have hRl : R.length = n + 3 := by
    rw [List.length_zipWith, hzl, hy]
    omega
  obtain ⟨dr', hd, -⟩ := draws_unique env R.sum (n + 1) 0 (by omega) (R.eraseIdx 0) (by
    rw [List.length_eraseIdx_of_lt (by rw [hRl]; omega), hRl]
    omega)
  obtain ⟨dt', ht, -⟩ := draws_unique env (wrapsOf R) (n + 1) 0 (by omega) (seen.theta.eraseIdx 0) (by
    rw [h.theta, List.length_eraseIdx_of_lt (by simp)]
    simp)
  refine ⟨R.sum, dr', dt', fun seen' h' => ?_⟩
  have hR : seen'.r = R := by
    refine eq_of_erase_sum _ _ 0 (by rw [h'.length]; omega) (by rw [hRl]; omega) ?_ h'.sum
    rw [h'.r]
    exact hd
  refine ⟨?_, ?_, ?_⟩
  · rw [hR, eraseIdx_zipWith, h.z, eraseIdx_zipWith, ← he, ← eraseIdx_zipWith, ← eraseIdx_zipWith,
      zipWith_add_cancel _ _ (by rw [h.length, hx])]
  · rw [h'.theta, hR]
    exact ht
  · rw [h'.z, hR, zipWith_sub_cancel _ _ (by rw [hzl, hy])]

variable {env : Env} {s : Session} {n : Nat}

/-- the product of tensors, element by element -/
abbrev prod : (ι → I64) →+ (ι → I64) →+ (ι → I64) := AddMonoidHom.mul (R := ι → I64)

theorem wf_length {T : Type} {x : MPCTensor T} (hs : s.Live env) (hx : x.WF env) (hxs : x.session = s) :
    (x.shares.map (·.tensor)).length = s.nrParties := by
  have := congrArg List.length hx.tags
  simpa [hxs, hs.ranks] using this

/-- the division by the scale, as it is seen -/
theorem truncate_saw (fl : ℚ → ℚ) (hs : s.Live env) (hn : s.nrParties = n + 3) (d : Draw (n + 2) ι)
    (S : State ι) (B : Program.State (ι → I64)) (hB : Sane env s (fun a b => prod a b) B) (z : MPCTensor (ι → I64))
    (ts : List (MPCTensor (ι → I64))) (hz : B.tensors = ts ++ [z]) :
    ∃ q seen, truncate fl env s d.wraps S B =
        .ok ⟨{ B with tensors := ts ++ [q] }, S.divisions ++ [⟨d.wraps, z.shares.map (·.tensor), seen⟩]⟩ ∧
      Sane env s (fun a b => prod a b) { B with tensors := ts ++ [q] } ∧
      Saw n d.r d.dr d.dt (z.shares.map (·.tensor)) seen ∧
      (q.shares.map (·.tensor)).eraseIdx 0 = ((z.shares.map (·.tensor)).eraseIdx 0).map fun t i =>
        floordiv (t i) (BitVec.ofInt 64 (s.config.encoderBase ^ s.config.encoderPrecision : Nat)) := by
  have hzm : z ∈ B.tensors := by simp [hz]
  obtain ⟨q, x', bs, wr, wz, a1, a2, a3, a4, a5, a6, a7, a8, a9, -⟩ := divide_seenT fl env s hs n hn d.wraps z (hB.wf z hzm) (hB.sess z hzm)
    (s.config.encoderBase ^ s.config.encoderPrecision : Nat)
  obtain ⟨seen, a1, e1, e2, e3⟩ : ∃ seen : DivideSeen ι,
      publicDivideSeen fl env d.wraps z (s.config.encoderBase ^ s.config.encoderPrecision : Nat) = .ok (q, seen) ∧
      seen.r = (List.range (n + 3)).map (shareTensorOf d.r (n + 1) (extend d.dr)) ∧
      seen.theta = (List.range (n + 3)).map (shareTensorOf wr (n + 1) (extend d.dt)) ∧
      seen.z = List.zipWith (· + ·) seen.r (z.shares.map (·.tensor)) := ⟨_, a1, rfl, rfl, rfl⟩
  refine ⟨q, seen, ?_, ⟨?_, ?_, hB.good⟩, ⟨e1, ?_, e3⟩, ?_⟩
  · unfold truncate
    rw [hz, List.getLast?_concat]
    show (publicDivideSeen _ _ _ _ _ >>= _) = _
    rw [a1, ok_bind, List.dropLast_concat]
    rfl
  · intro y hy
    rcases List.mem_append.mp hy with h' | h'
    · exact hB.wf y (by simp [hz, h'])
    · rw [List.mem_singleton.mp h']; exact a2
  · intro y hy
    rcases List.mem_append.mp hy with h' | h'
    · exact hB.sess y (by simp [hz, h'])
    · rw [List.mem_singleton.mp h']; exact a3
  · have : wrapsOf ((List.range (n + 3)).map (shareTensorOf d.r (n + 1) (extend d.dr))) = wr := by
      unfold wrapsOf
      have a9 : countWrapsT ((List.range (n + 3)).map (shareTensorOf d.r (n + 1) (extend d.dr))) = .ok wr := a9
      rw [a9]
    rw [e2, e1, this]
  · rw [eraseIdx_map, ← a7, List.eraseIdx_zero, List.eraseIdx_zero, ← List.map_tail, ← List.map_tail, a6]

/-! ## The statements -/

/-- a share divided by the scale -/
def quotient (s : Session) (t : ι → I64) (i : ι) : I64 :=
  floordiv (t i) (BitVec.ofInt 64 (s.config.encoderBase ^ s.config.encoderPrecision : Nat))

theorem step_secret (fl : ℚ → ℚ) (trunc : Config → (ι → I64) → ι → I64) (hs : s.Live env) (hn : s.nrParties = n + 3) (d : Draw (n + 2) ι)
    (S : State ι) (hS : Sane env s (fun a b => prod a b) S.base) (v : ι → Val) :
    ∃ A, step fl env s trunc d S (.secret v) = .ok A ∧ Sane env s (fun a b => prod a b) A.base ∧ A.divisions = S.divisions ∧
      A.base.log = S.base.log ++ [.shared ((List.range (n + 3)).map (shareTensorOf (PubEnc.enc s.config v) (n + 1) (extend d.sharing)))] ∧
      shareLists A.base = shareLists S.base ++
        [(List.range (n + 3)).map (shareTensorOf (PubEnc.enc s.config v) (n + 1) (extend d.sharing))] := by
  obtain ⟨B, h1, h2, -, h4, h5⟩ := share_step env s hs (n + 1) hn (fun a b => prod a b) S.base hS v d.sharing
  refine ⟨{ S with base := B }, ?_, h2, rfl, h4, h5⟩
  simp only [step, h1, ok_bind, pure_eq_ok]

theorem step_plain (fl : ℚ → ℚ) (trunc : Config → (ι → I64) → ι → I64) (d : Draw (n + 2) ι)
    (S : State ι) (hS : Sane env s (fun a b => prod a b) S.base) (c : Cmd (ι → Val) (ι → I64)) (hv : Valid S.base.tensors.length c)
    (hp : IsPlain c) (hm : ∀ i v, c ≠ .mulPublic i v) :
    ∃ A, step fl env s trunc d S c = .ok A ∧ Sane env s (fun a b => prod a b) A.base ∧ A.divisions = S.divisions ∧
      A.base.log = S.base.log ∧
      shareLists A.base = shareLists S.base ++ [plainShares s.config (fun a b => prod a b) (shareLists S.base) c] := by
  obtain ⟨B, z, h1, h2, h3, h4, -, h6⟩ := plain_step env s prod trunc S.base hS c hv hp
  have h1 : Program.plain env (fun a b : ι → I64 => a * b) trunc S.base c = .ok B := h1
  refine ⟨{ S with base := B }, ?_, h2, rfl, h3, ?_⟩
  · cases c <;> first | exact hp.elim | exact (hm _ _ rfl).elim | simp only [step, h1, ok_bind, pure_eq_ok]
  · rw [← h6]
    simp [shareLists, h4]

theorem step_mulPublic (fl : ℚ → ℚ) (trunc : Config → (ι → I64) → ι → I64) (hs : s.Live env) (hn : s.nrParties = n + 3) (d : Draw (n + 2) ι)
    (S : State ι) (hS : Sane env s (fun a b => prod a b) S.base) (i : Nat) (v : ι → Val) (hv : i < S.base.tensors.length) :
    ∃ A X Q seen, step fl env s trunc d S (.mulPublic i v) = .ok A ∧ Sane env s (fun a b => prod a b) A.base ∧
      X = plainShares s.config (fun a b => prod a b) (shareLists S.base) (.mulPublic i v) ∧ X.length = n + 3 ∧
      A.divisions = S.divisions ++ [⟨d.wraps, X, seen⟩] ∧ A.base.log = S.base.log ∧ Saw n d.r d.dr d.dt X seen ∧
      shareLists A.base = shareLists S.base ++ [Q] ∧ Q.eraseIdx 0 = (X.eraseIdx 0).map (quotient s) := by
  obtain ⟨B, z, h1, h2, h3, h4, -, h6⟩ := plain_step env s prod trunc S.base hS (.mulPublic i v) hv trivial
  have h1 : Program.plain env (fun a b : ι → I64 => a * b) trunc S.base (.mulPublic i v) = .ok B := h1
  obtain ⟨q, seen, g1, g2, g3, g4⟩ := truncate_saw fl hs hn d S B h2 z _ h4
  have hzm : z ∈ B.tensors := by simp [h4]
  refine ⟨⟨{ B with tensors := S.base.tensors ++ [q] }, S.divisions ++ [⟨d.wraps, z.shares.map (·.tensor), seen⟩]⟩, _,
    q.shares.map (·.tensor), seen, ?_, g2, h6, ?_, rfl, h3, g3, ?_, g4⟩
  · simp only [step, h1, ok_bind, g1]
  · rw [wf_length hs (h2.wf z hzm) (h2.sess z hzm), hn]
  · simp [shareLists]

theorem step_mul (fl : ℚ → ℚ) (trunc : Config → (ι → I64) → ι → I64) (hs : s.Live env) (hn : s.nrParties = n + 3) (d : Draw (n + 2) ι)
    (S : State ι) (hS : Sane env s (fun a b => prod a b) S.base) (i j : Nat) (x y : MPCTensor (ι → I64))
    (hi : S.base.tensors[i]? = some x) (hj : S.base.tensors[j]? = some y) :
    ∃ A X Q seen, step fl env s trunc d S (.mul i j) = .ok A ∧ Sane env s (fun a b => prod a b) A.base ∧
      X = ((List.range (n + 3)).map fun r => prodShare (fun a b => prod a b) (x.value - d.a) (y.value - d.b)
        (shareTensorOf d.a (n + 1) (extend d.da) r, shareTensorOf d.b (n + 1) (extend d.db) r,
          shareTensorOf (d.a * d.b) (n + 1) (extend d.dc) r) r) ∧
      A.divisions = S.divisions ++ [⟨d.wraps, X, seen⟩] ∧
      A.base.log = S.base.log ++ [.product (x.value - d.a) (y.value - d.b)
        (triplesOf (fun a b => prod a b) (n + 1) d.a d.b (extend d.da) (extend d.db) (extend d.dc))] ∧
      Saw n d.r d.dr d.dt X seen ∧
      shareLists A.base = shareLists S.base ++ [Q] ∧ Q.eraseIdx 0 = (X.eraseIdx 0).map (quotient s) := by
  obtain ⟨B, zs, z, h1, h2, h3, h4, h5, -, -, h8⟩ := product_step env s hs (n + 1) hn prod trunc S.base hS i j _ _ hi hj
    d.a d.b d.da d.db d.dc
  have h1 : Program.product env s (fun a b : ι → I64 => a * b) trunc i j d.a d.b d.da d.db d.dc S.base = .ok B := h1
  rw [if_neg (by omega)] at h5
  obtain ⟨q, seen, g1, g2, g3, g4⟩ := truncate_saw fl hs hn d S B h2 z _ h4
  refine ⟨⟨{ B with tensors := S.base.tensors ++ [q] }, S.divisions ++ [⟨d.wraps, z.shares.map (·.tensor), seen⟩]⟩, _,
    q.shares.map (·.tensor), seen, ?_, g2, h5.trans h8, rfl, h3, g3, ?_, g4⟩
  · simp only [step, h1, ok_bind, g1]
  · simp [shareLists]

/-! ## One statement of two programs -/

/-- `b` is `a` with something new, which is `e` -/
def Grows (a b e : List (Event (ι → I64)) × List (List (ι → I64) × List (ι → I64) × List (ι → I64))) : Prop :=
  b = (a.1 ++ e.1, a.2 ++ e.2)

/-- how many events and divisions a statement shows -/
def shown : Cmd (ι → Val) (ι → I64) → Nat × Nat
  | .secret _ => (1, 0)
  | .mulPublic _ _ => (0, 1)
  | .mul _ _ => (1, 1)
  | _ => (0, 0)

theorem others_push {B B' : Program.State (ι → I64)} {X X' : List (ι → I64)} {A A' : Program.State (ι → I64)} (ho : others 0 B = others 0 B')
    (h : shareLists A = shareLists B ++ [X]) (h' : shareLists A' = shareLists B' ++ [X']) (hX : X.eraseIdx 0 = X'.eraseIdx 0) :
    others 0 A = others 0 A' := by
  unfold others at ho ⊢
  rw [h, h', List.map_append, List.map_append, ho, List.map_singleton, List.map_singleton, hX]

theorem length_push {B A : Program.State (ι → I64)} {X : List (ι → I64)} (h : shareLists A = shareLists B ++ [X]) :
    A.tensors.length = B.tensors.length + 1 := by
  have := congrArg List.length h
  simpa [shareLists] using this

/-- a statement looks the same in another run, for some random tensors -/
theorem step_exists (fl : ℚ → ℚ) (trunc : Config → (ι → I64) → ι → I64) (hs : s.Live env) (hn : s.nrParties = n + 3)
    (c c' : Cmd (ι → Val) (ι → I64)) (hc : SameBut c c') (d : Draw (n + 2) ι) (S S' : State ι)
    (hS : Sane env s (fun a b => prod a b) S.base) (hS' : Sane env s (fun a b => prod a b) S'.base)
    (ho : others 0 S.base = others 0 S'.base) (hv : Valid S.base.tensors.length c) :
    ∃ (A : State ι) (d' : Draw (n + 2) ι) (A' : State ι) (e : _), step fl env s trunc d S c = .ok A ∧ step fl env s trunc d' S' c' = .ok A' ∧ Sane env s (fun a b => prod a b) A.base ∧
      Sane env s (fun a b => prod a b) A'.base ∧ others 0 A.base = others 0 A'.base ∧
      A.base.tensors.length = S.base.tensors.length + 1 ∧ Grows (look S) (look A) e ∧ Grows (look S') (look A') e ∧
      (e.1.length, e.2.length) = shown c := by
  have hlen : S.base.tensors.length = S'.base.tensors.length := by
    have := congrArg List.length ho
    simpa [others, shareLists] using this
  have plainCase : ∀ c : Cmd (ι → Val) (ι → I64), Valid S.base.tensors.length c → IsPlain c → (∀ i v, c ≠ .mulPublic i v) → shown c = (0, 0) →
      ∃ (A : State ι) (d' : Draw (n + 2) ι) (A' : State ι) (e : _), step fl env s trunc d S c = .ok A ∧ step fl env s trunc d' S' c = .ok A' ∧ Sane env s (fun a b => prod a b) A.base ∧
        Sane env s (fun a b => prod a b) A'.base ∧ others 0 A.base = others 0 A'.base ∧
        A.base.tensors.length = S.base.tensors.length + 1 ∧ Grows (look S) (look A) e ∧ Grows (look S') (look A') e ∧
        (e.1.length, e.2.length) = shown c := by
    intro c hv hp hm hk
    obtain ⟨A, a1, a2, a3, a4, a5⟩ := step_plain (n := n) fl trunc d S hS c hv hp hm
    obtain ⟨A', b1, b2, b3, b4, b5⟩ := step_plain (n := n) fl trunc d S' hS' c (hlen ▸ hv) hp hm
    refine ⟨A, d, A', ([], []), a1, b1, a2, b2, others_push ho a5 b5 (plain_others s.config _ 0 _ _ ho c), length_push a5, ?_, ?_, hk.symm⟩
    · simp [Grows, look, a3, a4]
    · simp [Grows, look, b3, b4]
  cases c with
  | lin o i j =>
    have : c' = .lin o i j := by cases c' <;> exact hc.symm
    subst this
    exact plainCase _ hv trivial (by simp) rfl
  | linPublic o i v =>
    have : c' = .linPublic o i v := by cases c' <;> exact hc.symm
    subst this
    exact plainCase _ hv trivial (by simp) rfl
  | method f i =>
    have : c' = .method f i := by cases c' <;> exact hc.symm
    subst this
    exact plainCase _ hv trivial (by simp) rfl
  | secret v =>
    cases c' <;> cases hc
    case secret v' =>
    obtain ⟨A, a1, a2, a3, a4, a5⟩ := step_secret fl trunc hs hn d S hS v
    obtain ⟨e, he, -⟩ := draws_unique env (PubEnc.enc s.config v') (n + 1) 0 (by omega) _ (by
      rw [List.length_eraseIdx_of_lt (by simp)]
      simp : (((List.range (n + 3)).map (shareTensorOf (PubEnc.enc s.config v) (n + 1) (extend d.sharing))).eraseIdx 0).length = n + 2)
    obtain ⟨A', b1, b2, b3, b4, b5⟩ := step_secret fl trunc hs hn { d with sharing := e } S' hS' v'
    refine ⟨A, _, A', ([.shared (((List.range (n + 3)).map (shareTensorOf (PubEnc.enc s.config v) (n + 1) (extend d.sharing))).eraseIdx 0)], []),
      a1, b1, a2, b2, others_push ho a5 b5 he.symm, length_push a5, ?_, ?_, rfl⟩
    · simp [Grows, look, a3, a4, hide]
    · rw [← he]
      simp [Grows, look, b3, b4, hide]
  | mulPublic i v =>
    have : c' = .mulPublic i v := by cases c' <;> exact hc.symm
    subst this
    obtain ⟨A, X, Q, seen, a1, a2, a3, a4, a5, a6, a7, a8, a9⟩ := step_mulPublic fl trunc hs hn d S hS i v hv
    obtain ⟨-, X', -, -, -, -, b3, b4, -⟩ := step_mulPublic fl trunc hs hn d S' hS' i v (hlen ▸ hv)
    have hX : X.eraseIdx 0 = X'.eraseIdx 0 := by
      rw [a3, b3]
      exact plain_others s.config _ 0 _ _ ho _
    obtain ⟨r, dr, dt, hsaw⟩ := saw_exists env a4 b4 hX a7
    obtain ⟨A', X'', Q', seen', b1, b2, b3', -, b5, b6, b7, b8, b9⟩ :=
      step_mulPublic fl trunc hs hn { d with r := r, dr := dr, dt := dt } S' hS' i v (hlen ▸ hv)
    obtain rfl : X'' = X' := by rw [b3', b3]
    obtain ⟨e1, e2, e3⟩ := hsaw seen' b7
    refine ⟨A, _, A', ([], [(seen.r.eraseIdx 0, seen.theta.eraseIdx 0, seen.z)]), a1, b1, a2, b2,
      others_push ho a8 b8 (by rw [a9, b9, hX]), length_push a8, ?_, ?_, rfl⟩
    · simp [Grows, look, a5, a6]
    · rw [← e1, ← e2, ← e3]
      simp [Grows, look, b5, b6]
  | mul i j =>
    have : c' = .mul i j := by cases c' <;> exact hc.symm
    subst this
    have hi : S.base.tensors[i]? = some (S.base.tensors[i]'hv.1) := by simp [hv.1]
    have hj : S.base.tensors[j]? = some (S.base.tensors[j]'hv.2) := by simp [hv.2]
    have hi' : S'.base.tensors[i]? = some (S'.base.tensors[i]'(hlen ▸ hv.1)) := by simp [hlen ▸ hv.1]
    have hj' : S'.base.tensors[j]? = some (S'.base.tensors[j]'(hlen ▸ hv.2)) := by simp [hlen ▸ hv.2]
    generalize S.base.tensors[i]'hv.1 = x at hi
    generalize S.base.tensors[j]'hv.2 = y at hj
    generalize S'.base.tensors[i]'(hlen ▸ hv.1) = x' at hi'
    generalize S'.base.tensors[j]'(hlen ▸ hv.2) = y' at hj'
    obtain ⟨A, X, Q, seen, a1, a2, a3, a5, a6, a7, a8, a9⟩ := step_mul fl trunc hs hn d S hS i j x y hi hj
    obtain ⟨⟨da, db, dc⟩, hd, -⟩ := triple_unique env (fun a b => prod a b) (x'.value - (x.value - d.a)) (y'.value - (y.value - d.b)) (n + 1) 0
      (by omega) _ (by
        rw [List.length_eraseIdx_of_lt (by simp [triplesOf])]
        simp [triplesOf] :
        ((triplesOf (fun a b => prod a b) (n + 1) d.a d.b (extend d.da) (extend d.db) (extend d.dc)).eraseIdx 0).length = n + 2)
    let d1 : Draw (n + 2) ι := { d with a := x'.value - (x.value - d.a), b := y'.value - (y.value - d.b), da := da, db := db, dc := dc }
    obtain ⟨-, X', -, -, -, -, b3, -⟩ := step_mul fl trunc hs hn d1 S' hS' i j x' y' hi' hj'
    have hX : X.eraseIdx 0 = X'.eraseIdx 0 := by
      rw [a3, b3, erase_congr (n + 2) 0 (by omega)]
      intro r hr hne
      have := (erase_congr (n + 2) 0 (by omega) _ _).mp hd r hr hne
      have ea : x'.value - d1.a = x.value - d.a := sub_sub_cancel _ _
      have eb : y'.value - d1.b = y.value - d.b := sub_sub_cancel _ _
      rw [ea, eb]
      exact congrArg (fun t => prodShare (fun a b => prod a b) (x.value - d.a) (y.value - d.b) t r) this.symm
    obtain ⟨r, dr, dt, hsaw⟩ := saw_exists env (by simp [a3]) (by simp [b3]) hX a7
    obtain ⟨A', X'', Q', seen', b1, b2, b3', b5, b6, b7, b8, b9⟩ :=
      step_mul fl trunc hs hn { d1 with r := r, dr := dr, dt := dt } S' hS' i j x' y' hi' hj'
    obtain rfl : X'' = X' := by rw [b3', b3]
    obtain ⟨e1, e2, e3⟩ := hsaw seen' b7
    refine ⟨A, _, A', ([.product (x.value - d.a) (y.value - d.b)
        ((triplesOf (fun a b => prod a b) (n + 1) d.a d.b (extend d.da) (extend d.db) (extend d.dc)).eraseIdx 0)],
      [(seen.r.eraseIdx 0, seen.theta.eraseIdx 0, seen.z)]), a1, b1, a2, b2,
      others_push ho a8 b8 (by rw [a9, b9, hX]), length_push a8, ?_, ?_, rfl⟩
    · simp [Grows, look, a5, a6, hide]
    · have ea : x'.value - d1.a = x.value - d.a := sub_sub_cancel _ _
      have eb : y'.value - d1.b = y.value - d.b := sub_sub_cancel _ _
      rw [← e1, ← e2, ← e3, ← hd, ← ea, ← eb]
      simp [Grows, look, b5, b6, hide, d1]

/-- the random tensors of a statement are known from what the others see of it -/
theorem step_unique (fl : ℚ → ℚ) (trunc : Config → (ι → I64) → ι → I64) (hs : s.Live env) (hn : s.nrParties = n + 3)
    (c : Cmd (ι → Val) (ι → I64)) (d d' : Draw (n + 2) ι) (S A A' : State ι) (hS : Sane env s (fun a b => prod a b) S.base)
    (hv : Valid S.base.tensors.length c) (h : step fl env s trunc d S c = .ok A) (h' : step fl env s trunc d' S c = .ok A')
    (hl : look A = look A') : SameDraw c d d' ∧ A = A' := by
  cases c with
  | lin o i j => exact ⟨trivial, Except.ok.inj (h.symm.trans h')⟩
  | linPublic o i v => exact ⟨trivial, Except.ok.inj (h.symm.trans h')⟩
  | method f i => exact ⟨trivial, Except.ok.inj (h.symm.trans h')⟩
  | secret v =>
    obtain ⟨B, a1, -, a3, a4, -⟩ := step_secret fl trunc hs hn d S hS v
    obtain ⟨B', b1, -, b3, b4, -⟩ := step_secret fl trunc hs hn d' S hS v
    obtain rfl : A = B := Except.ok.inj (h.symm.trans a1)
    obtain rfl : A' = B' := Except.ok.inj (h'.symm.trans b1)
    have hd : d.sharing = d'.sharing := by
      simp only [look, a4, b4, List.map_append, List.map_cons, List.map_nil, hide, Prod.mk.injEq, List.append_cancel_left_eq,
        List.cons.injEq, Event.shared.injEq, and_true] at hl
      refine (draws_unique env (PubEnc.enc s.config v) (n + 1) 0 (by omega) _ ?_).unique hl.1 rfl
      rw [List.length_eraseIdx_of_lt (by simp)]
      simp
    refine ⟨hd, ?_⟩
    rw [step, hd] at h
    exact Except.ok.inj (h.symm.trans h')
  | mulPublic i v =>
    obtain ⟨B, X, Q, seen, a1, -, a3, a4, a5, -, a7, -⟩ := step_mulPublic fl trunc hs hn d S hS i v hv
    obtain ⟨B', X', Q', seen', b1, -, b3, -, b5, -, b7, -⟩ := step_mulPublic fl trunc hs hn d' S hS i v hv
    obtain rfl : A = B := Except.ok.inj (h.symm.trans a1)
    obtain rfl : A' = B' := Except.ok.inj (h'.symm.trans b1)
    obtain rfl : X' = X := by rw [a3, b3]
    simp only [look, a5, b5, List.map_append, List.map_cons, List.map_nil, Prod.mk.injEq, List.append_cancel_left_eq,
      List.cons.injEq, and_true] at hl
    obtain ⟨e1, e2, e3⟩ := saw_unique env a4 a7 b7 hl.2.2.1 hl.2.2.2
    refine ⟨⟨e1, e2, e3⟩, ?_⟩
    rw [step, Draw.wraps, e1, e2, e3] at h
    exact Except.ok.inj (h.symm.trans h')
  | mul i j =>
    have hi : S.base.tensors[i]? = some (S.base.tensors[i]'hv.1) := by simp [hv.1]
    have hj : S.base.tensors[j]? = some (S.base.tensors[j]'hv.2) := by simp [hv.2]
    generalize S.base.tensors[i]'hv.1 = x at hi
    generalize S.base.tensors[j]'hv.2 = y at hj
    obtain ⟨B, X, Q, seen, a1, -, a3, a5, a6, a7, -⟩ := step_mul fl trunc hs hn d S hS i j x y hi hj
    obtain ⟨B', X', Q', seen', b1, -, b3, b5, b6, b7, -⟩ := step_mul fl trunc hs hn d' S hS i j x y hi hj
    obtain rfl : A = B := Except.ok.inj (h.symm.trans a1)
    obtain rfl : A' = B' := Except.ok.inj (h'.symm.trans b1)
    simp only [look, a5, b5, a6, b6, List.map_append, List.map_cons, List.map_nil, hide, Prod.mk.injEq, List.append_cancel_left_eq,
      List.cons.injEq, Event.product.injEq, and_true] at hl
    obtain ⟨⟨ka, kb, kt⟩, -, k1, k2⟩ := hl
    have ea : d.a = d'.a := sub_right_injective ka
    have eb : d.b = d'.b := sub_right_injective kb
    have et : (d.da, d.db, d.dc) = (d'.da, d'.db, d'.dc) := by
      refine (triple_unique env (fun a b => prod a b) d.a d.b (n + 1) 0 (by omega) _ ?_).unique rfl ?_
      · rw [List.length_eraseIdx_of_lt (by simp [triplesOf])]
        simp [triplesOf]
      · rw [kt, ea, eb]
    simp only [Prod.mk.injEq] at et
    obtain ⟨e1, e2, e3⟩ := et
    obtain rfl : X' = X := by rw [a3, b3, ea, eb, e1, e2, e3]
    obtain ⟨f1, f2, f3⟩ := saw_unique env (by simp [a3]) a7 b7 k1 k2
    refine ⟨⟨ea, eb, e1, e2, e3, f1, f2, f3⟩, ?_⟩
    rw [step, Draw.wraps, ea, eb, e1, e2, e3, f1, f2, f3] at h
    exact Except.ok.inj (h.symm.trans h')

/-! ## Programs -/

theorem Grows.trans {a b c e f : List (Event (ι → I64)) × List (List (ι → I64) × List (ι → I64) × List (ι → I64))} (h : Grows a b e)
    (h' : Grows b c f) : Grows a c (e.1 ++ f.1, e.2 ++ f.2) := by
  unfold Grows at h h' ⊢
  rw [h', h]
  simp

theorem same_refl (c : Cmd (ι → Val) (ι → I64)) : SameBut c c := by cases c <;> trivial

/-- a run shows more and more -/
theorem run_grows (fl : ℚ → ℚ) (trunc : Config → (ι → I64) → ι → I64) (hs : s.Live env) (hn : s.nrParties = n + 3)
    (prog : List (Cmd (ι → Val) (ι → I64))) (draws : Nat → Draw (n + 2) ι) (S R : State ι)
    (hS : Sane env s (fun a b => prod a b) S.base) (hv : ValidProg S.base.tensors.length prog)
    (h : run fl env s trunc draws prog S = .ok R) : ∃ e, Grows (look S) (look R) e := by
  induction prog generalizing S with
  | nil =>
    cases h
    exact ⟨([], []), by simp [Grows]⟩
  | cons c cs ih =>
    obtain ⟨A, d', A', e, a1, -, a3, -, -, a6, a7, -⟩ := step_exists fl trunc hs hn c c (same_refl c) (draws S.base.tensors.length) S S hS hS rfl hv.1
    rw [run, a1, ok_bind] at h
    obtain ⟨f, hf⟩ := ih A a3 (by rw [a6]; exact hv.2) h
    exact ⟨_, a7.trans hf⟩

/-- the random tensors of a run are known from what the others see of it -/
theorem run_unique (fl : ℚ → ℚ) (trunc : Config → (ι → I64) → ι → I64) (hs : s.Live env) (hn : s.nrParties = n + 3)
    (prog : List (Cmd (ι → Val) (ι → I64))) (draws draws' : Nat → Draw (n + 2) ι) (S R R' : State ι)
    (hS : Sane env s (fun a b => prod a b) S.base) (hv : ValidProg S.base.tensors.length prog)
    (h : run fl env s trunc draws prog S = .ok R) (h' : run fl env s trunc draws' prog S = .ok R') (hl : look R = look R') :
    ∀ k c, prog[k]? = some c → SameDraw c (draws (S.base.tensors.length + k)) (draws' (S.base.tensors.length + k)) := by
  induction prog generalizing S with
  | nil => intro k c hk; simp at hk
  | cons c cs ih =>
    obtain ⟨A, -, -, e, a1, -, a3, -, -, a6, a7, -, a9⟩ :=
      step_exists fl trunc hs hn c c (same_refl c) (draws S.base.tensors.length) S S hS hS rfl hv.1
    obtain ⟨A', -, -, e', b1, -, b3, -, -, b6, b7, -, b9⟩ :=
      step_exists fl trunc hs hn c c (same_refl c) (draws' S.base.tensors.length) S S hS hS rfl hv.1
    rw [run, a1, ok_bind] at h
    rw [run, b1, ok_bind] at h'
    obtain ⟨f, hf⟩ := run_grows fl trunc hs hn cs draws A R a3 (by rw [a6]; exact hv.2) h
    obtain ⟨f', hf'⟩ := run_grows fl trunc hs hn cs draws' A' R' b3 (by rw [b6]; exact hv.2) h'
    have hlen : (e.1.length, e.2.length) = (e'.1.length, e'.2.length) := a9.trans b9.symm
    simp only [Prod.mk.injEq] at hlen
    have hA : look A = look A' := by
      unfold Grows at a7 b7 hf hf'
      rw [hf, hf', Prod.mk.injEq] at hl
      refine Prod.ext ?_ ?_
      · exact (List.append_inj hl.1 (by rw [a7, b7]; simp [hlen.1])).1
      · exact (List.append_inj hl.2 (by rw [a7, b7]; simp [hlen.2])).1
    obtain ⟨g1, rfl⟩ := step_unique fl trunc hs hn c _ _ S A A' hS hv.1 a1 b1 hA
    have := ih A a3 (by rw [a6]; exact hv.2) h h'
    intro k c' hk
    cases k with
    | zero =>
      obtain rfl : c = c' := by simpa using hk
      exact g1
    | succ k =>
      have := this k c' (by simpa using hk)
      rw [a6] at this
      rwa [show S.base.tensors.length + 1 + k = S.base.tensors.length + (k + 1) by omega] at this

/-- the random tensors of statements that are over do not matter -/
theorem run_congr (fl : ℚ → ℚ) (trunc : Config → (ι → I64) → ι → I64) (hs : s.Live env) (hn : s.nrParties = n + 3)
    (prog : List (Cmd (ι → Val) (ι → I64))) (draws draws' : Nat → Draw (n + 2) ι) (S : State ι)
    (hS : Sane env s (fun a b => prod a b) S.base) (hv : ValidProg S.base.tensors.length prog)
    (hd : ∀ k, S.base.tensors.length ≤ k → draws k = draws' k) :
    run fl env s trunc draws prog S = run fl env s trunc draws' prog S := by
  induction prog generalizing S with
  | nil => rfl
  | cons c cs ih =>
    obtain ⟨A, -, -, -, a1, -, a3, -, -, a6, -⟩ := step_exists fl trunc hs hn c c (same_refl c) (draws S.base.tensors.length) S S hS hS rfl hv.1
    rw [run, run, ← hd _ le_rfl, a1, ok_bind, ok_bind]
    exact ih A a3 (by rw [a6]; exact hv.2) (fun k hk => hd k (by omega))

/-- a run of a program looks the same as a run of one with other secrets -/
theorem run_exists (fl : ℚ → ℚ) (trunc : Config → (ι → I64) → ι → I64) (hs : s.Live env) (hn : s.nrParties = n + 3)
    (p p' : List (Cmd (ι → Val) (ι → I64))) (hp : List.Forall₂ SameBut p p') (draws : Nat → Draw (n + 2) ι) (S S' : State ι)
    (hS : Sane env s (fun a b => prod a b) S.base) (hS' : Sane env s (fun a b => prod a b) S'.base)
    (ho : others 0 S.base = others 0 S'.base) (hl : look S = look S') (hv : ValidProg S.base.tensors.length p) :
    ∃ R draws' R', run fl env s trunc draws p S = .ok R ∧ run fl env s trunc (m := n + 2) draws' p' S' = .ok R' ∧ look R = look R' ∧
      others 0 R.base = others 0 R'.base ∧ Sane env s (fun a b => prod a b) R.base ∧ Sane env s (fun a b => prod a b) R'.base ∧
      R.base.tensors.length = S.base.tensors.length + p.length := by
  induction hp generalizing S S' with
  | nil => exact ⟨S, draws, S', rfl, rfl, hl, ho, hS, hS', rfl⟩
  | @cons c c' cs cs' hc hcs ih =>
    have hlen : S.base.tensors.length = S'.base.tensors.length := by
      have := congrArg List.length ho
      simpa [others, shareLists] using this
    obtain ⟨A, d', A', e, a1, a2, a3, a4, a5, a6, a7, a8, -⟩ :=
      step_exists fl trunc hs hn c c' hc (draws S.base.tensors.length) S S' hS hS' ho hv.1
    obtain ⟨R, draws', R', b1, b2, b3, b4, b5, b6, b7⟩ := ih A A' a3 a4 a5 (by rw [a7, a8, hl]) (by rw [a6]; exact hv.2)
    have hlen' : A'.base.tensors.length = S'.base.tensors.length + 1 := by
      have := congrArg List.length a5
      simp only [others, shareLists, List.length_map] at this
      omega
    refine ⟨R, fun k => if k = S'.base.tensors.length then d' else draws' k, R', ?_, ?_, b3, b4, b5, b6, ?_⟩
    · rw [run, a1, ok_bind, b1]
    · rw [run, if_pos rfl, a2, ok_bind, ← b2]
      refine run_congr fl trunc hs hn cs' _ _ A' a4 ?_ ?_
      · rw [hlen', ← hlen]
        exact sameBut_valid cs cs' hcs _ hv.2
      intro k hk
      rw [if_neg (by omega)]
    · rw [b7, a6]
      simp
      omega

/-- C79: all parties but the first together learn nothing from a whole program with three or more parties, in which the encoder's scale
is divided out after every product.  Take two programs that differ in the numbers of their secrets only.  Both raise no exception, and for
whatever is drawn in the first there are random tensors for the second with which those parties see the same: their shares of the
secrets, their parts of the triples, the opened values, and for every division their parts of `r` and of its wraps and all shares
of `z`.  These random tensors are the only ones, as far as the program uses them.  Their shares of every tensor are the same, and if a
tensor has the same value in both runs then so are all shares, which is what is shown by opening it.

What is missing: the first party also gets the corrections of the divisions, and these depend on the secrets, see `C79_wraps_leak`; and
the random tensors of the code are not drawn from the whole ring, see `C04_half_range_leaks`. -/
theorem _root_.SyMPC.C79_programs_partial (fl : ℚ → ℚ) (env : Env) (s : Session) (hs : s.Live env) (n : Nat) (hn : s.nrParties = n + 3)
    (trunc : Config → (ι → I64) → ι → I64) (p1 p2 : List (Cmd (ι → Val) (ι → I64))) (hp : List.Forall₂ SameBut p1 p2)
    (hv : ValidProg 0 p1) (draws1 : Nat → Draw (n + 2) ι) :
    ∃ (S1 S2 : State ι) (draws2 : Nat → Draw (n + 2) ι), run fl env s trunc draws1 p1 State.empty = .ok S1 ∧
      run fl env s trunc draws2 p2 State.empty = .ok S2 ∧ look S1 = look S2 ∧
      S1.base.tensors.length = p1.length ∧ S2.base.tensors.length = p1.length ∧
      (∀ (k : Nat) (x1 x2 : MPCTensor (ι → I64)), S1.base.tensors[k]? = some x1 → S2.base.tensors[k]? = some x2 →
        (x1.shares.map (·.tensor)).tail = (x2.shares.map (·.tensor)).tail ∧
        (x1.reconstruct = x2.reconstruct → x1.shares.map (·.tensor) = x2.shares.map (·.tensor))) ∧
      ∀ (draws : Nat → Draw (n + 2) ι) (S : State ι), run fl env s trunc draws p2 State.empty = .ok S → look S1 = look S →
        ∀ k c, p2[k]? = some c → SameDraw c (draws2 k) (draws k) := by
  obtain ⟨S1, draws2, S2, h1, h2, h3, h4, h5, h6, h7⟩ := run_exists fl trunc hs hn p1 p2 hp draws1 State.empty State.empty (Sane.empty ..)
    (Sane.empty ..) rfl rfl hv
  have hlen : S1.base.tensors.length = S2.base.tensors.length := by
    have := congrArg List.length h4
    simpa [others, shareLists] using this
  have h7 : S1.base.tensors.length = p1.length := by rw [h7]; simp [State.empty, Program.State.empty]
  refine ⟨S1, S2, draws2, h1, h2, h3, h7, by rw [← hlen, h7], ?_, ?_⟩
  · intro k x1 x2 hx1 hx2
    have hk := congrArg (fun l => l[k]?) h4
    simp only [others, shareLists, List.getElem?_map, hx1, hx2, Option.map_some, Option.some.injEq] at hk
    refine ⟨by simpa using hk, fun hr => ?_⟩
    have w1 := h5.wf x1 (List.mem_of_getElem? hx1)
    have w2 := h6.wf x2 (List.mem_of_getElem? hx2)
    rw [wf_value w1, wf_value w2] at hr
    refine eq_of_erase_sum _ _ 0 ?_ ?_ hk (Except.ok.inj hr)
    · rw [wf_length hs w1 (h5.sess x1 (List.mem_of_getElem? hx1))]
      omega
    · rw [wf_length hs w2 (h6.sess x2 (List.mem_of_getElem? hx2))]
      omega
  · intro draws S hr hl k c hk
    have := run_unique fl trunc hs hn p2 draws2 draws State.empty S2 S (Sane.empty ..) (sameBut_valid p1 p2 hp _ hv) h2 hr (h3.symm.trans hl) k c hk
    simpa [State.empty, Program.State.empty] using this

/-! ## A concrete case -/

/-- the program of `exShort` with other secrets, then multiplied by itself -/
def exOther (x y : Val) : List (Cmd (Fin 2 → Val) (Fin 2 → I64)) :=
  [.secret ![x, y], .mulPublic 0 ![.int (-3), .float (7 / 10)], .lin .add 1 0, .mul 2 0]

example : exSession.Live exEnv ∧ exSession.nrParties = 0 + 3 ∧
    List.Forall₂ SameBut (exOther (.float (3 / 2)) (.int (-2))) (exOther (.int 7) (.float (1 / 4))) ∧
    ValidProg 0 (exOther (.float (3 / 2)) (.int (-2))) :=
  ⟨exLive, rfl, by simp [exOther, SameBut], by simp [exOther, ValidProg, Valid]⟩

end SyMPC.NProgram
