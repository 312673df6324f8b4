import Verif.Lemmas.Spdz
import Verif.Props.Share
import Mathlib.Algebra.Group.Hom.Instances
import Mathlib.Algebra.Ring.Hom.Defs

/-!
# C18, C19, C20, C23: multiplication of two secrets with Beaver triples
-/

namespace SyMPC

variable {K Kw : Type} [DecidableEq K] {A B C : K → Type}
  [∀ k, AddCommGroup (A k)] [∀ k, AddCommGroup (B k)] [∀ k, AddCommGroup (C k)]

/-- one multiplication in a world that satisfies the invariant -/
theorem mul_step (env : Env) (s : Session) (hs : s.Live env) (op : (k : K) → Kw → A k →+ B k →+ C k)
    (trunc : (k : K) → Config → C k → C k) (rnd : (k : K) → Nat → TripleRand (A k) (B k) (C k))
    (w : World K A B C) (q : K → List Nat)
    (kwOf : Nat → Kw) (ts : (k : K) → Nat → Nat → Triple (A k) (B k) (C k))
    (hg : w.Good (fun k kw a b => op k kw a b) s q kwOf ts) (k : K) (kw : Kw)
    (x : MPCTensor (A k)) (y : MPCTensor (B k)) (hx : x.WF env) (hy : y.WF env) (hxs : x.session = s) (hys : y.session = s) :
    ∃ out w' q' kwOf' ts' i zs a b, mulMaster env (fun k kw a b => op k kw a b) trunc rnd k kw w x y = .ok (out, w') ∧
      w'.Good (fun k kw a b => op k kw a b) s q' kwOf' ts' ∧ w.serial ≤ w'.serial ∧ i < w'.serial ∧
      (∀ k' j, j ∈ q' k' → j ∈ q k') ∧ (∀ k', i ∉ q' k') ∧
      (∀ j < w.serial, kwOf' j = kwOf j) ∧
      ((i ∈ q k ∧ w'.serial = w.serial) ∨ (q k = [] ∧ i = w.serial ∧ kwOf' i = kw ∧ a = (rnd k i).a ∧ b = (rnd k i).b)) ∧
      out.maskIds = List.replicate s.nrParties i ∧ out.mulIds = List.replicate s.nrParties i ∧
      out.eps = x.value - a ∧ out.delta = y.value - b ∧
      out.result.session = s ∧ out.result.shares.map (·.sessionUuid) = s.rankToUuid.map some ∧
      out.result.shares.map (·.tensor) = (if s.nrParties = 2 then zs.map (trunc k s.config) else zs) ∧
      zs.length = s.nrParties ∧
      zs.sum = op k kw x.value y.value + (op k (kwOf' i) a b - op k kw a b) := by
  cases hq : q k with
  | cons i rest =>
    obtain ⟨out, w', zs, h1, h2, h3, h4, h5, h6, h7, h8, h9, h10, h11, h12, -⟩ := mul_core env s hs op trunc rnd w q kwOf ts hg k kw x y hx hy hxs
      hys i rest hq w (by
        intro m hm
        unfold maskOrGenerate
        rw [hm])
    have hi : i ∈ q k := by rw [hq]; simp
    refine ⟨out, w', _, kwOf, ts, i, zs, _, _, h1, h3, by rw [h2], by rw [h2]; exact hg.bound k i hi, ?_, ?_,
      fun _ _ => rfl, .inl ⟨by simp, h2⟩, h4, h5, h6, h7, h8, h9, h10, h11, h12⟩
    · intro k' j hj
      by_cases hk : k' = k
      · subst hk
        rw [Function.update_self] at hj
        rw [hq]; simp [hj]
      · rwa [Function.update_of_ne hk] at hj
    · intro k' hi'
      by_cases hk : k' = k
      · subst hk
        rw [Function.update_self] at hi'
        have := hg.nodup k'
        rw [hq, List.nodup_cons] at this
        exact this.1 hi'
      · rw [Function.update_of_ne hk] at hi'
        exact hk (hg.disjoint _ _ _ hi' hi)
  | nil =>
    obtain ⟨w1, ts1, hgen, hser1, hg1, hts, hsa, hsb⟩ := generate_good env s hs _ rnd k kw w q kwOf ts hg
    obtain ⟨out, w', zs, h1, h2, h3, h4, h5, h6, h7, h8, h9, h10, h11, h12, -⟩ := mul_core env s hs op trunc rnd w1 _ _ ts1 hg1 k kw x y hx hy hxs
      hys w.serial [] (by simp [hq]) w (by
        intro m hm
        unfold maskOrGenerate
        rw [maskAll_empty env s hs _ w q kwOf ts hg k x y hx hy hxs hys hq]
        dsimp only
        rw [hxs, hgen, ok_bind, hm]
        rfl)
    have hmem : ∀ k' j, j ∈ Function.update (Function.update q k (q k ++ [w.serial])) k [] k' → k' ≠ k ∧ j ∈ q k' := by
      intro k' j hj
      by_cases hk : k' = k
      · subst hk
        simp at hj
      · rw [Function.update_of_ne hk, Function.update_of_ne hk] at hj
        exact ⟨hk, hj⟩
    refine ⟨out, w', _, _, ts1, w.serial, zs, _, _, h1, h3, by omega, by omega, fun k' j hj => (hmem k' j hj).2, ?_, ?_,
      .inr ⟨rfl, rfl, by simp, hsa, hsb⟩, h4, h5, h6, h7, h8, h9, h10, h11, h12⟩
    · intro k' hi'
      have := hg.bound _ _ (hmem k' _ hi').2
      omega
    · intro j hj
      rw [Function.update_of_ne (by omega)]

/-- every history runs, and what can be said about each of its products -/
theorem run_ok (env : Env) (s : Session) (hs : s.Live env) (op : (k : K) → Kw → A k →+ B k →+ C k)
    (trunc : (k : K) → Config → C k → C k) (rnd : (k : K) → Nat → TripleRand (A k) (B k) (C k))
    (kwAt : Option (K → Kw))
    (cs : List (MulCmd K Kw A B)) (hcs : ∀ c ∈ cs, c.Ok env s)
    (hkw : ∀ f, kwAt = some f → ∀ c ∈ cs, c.KwIs f)
    (w : World K A B C) (q : K → List Nat) (kwOf : Nat → Kw) (ts : (k : K) → Nat → Nat → Triple (A k) (B k) (C k))
    (hg : w.Good (fun k kw a b => op k kw a b) s q kwOf ts)
    (hq : ∀ f, kwAt = some f → ∀ k, ∀ i ∈ q k, kwOf i = f k) :
    ∃ (evs : List (MulEvent K Kw A B C)) (ids : List Nat), runMul env s (fun k kw a b => op k kw a b) trunc rnd cs w = .ok evs ∧
      evs.map (fun e => (e.out.maskIds, e.out.mulIds))
        = ids.map (fun i => (List.replicate s.nrParties i, List.replicate s.nrParties i)) ∧
      ids.length = countMul cs ∧ ids.Nodup ∧ (∀ i ∈ ids, i < w.serial → ∃ k, i ∈ q k) ∧
      (∀ e ∈ evs, e.out.result.session = s ∧ e.out.result.shares.map (·.sessionUuid) = s.rankToUuid.map some ∧
        ∃ zs, e.out.result.shares.map (·.tensor) = (if s.nrParties = 2 then zs.map (trunc e.k s.config) else zs) ∧
          zs.length = s.nrParties ∧ (kwAt.isSome → zs.sum = op e.k e.kw e.x.value e.y.value)) := by
  induction cs generalizing w q kwOf ts with
  | nil => exact ⟨[], [], rfl, rfl, rfl, by simp, by simp, by simp⟩
  | cons c cs ih =>
    have hcs' : ∀ c ∈ cs, c.Ok env s := fun c' h => hcs c' (by simp [h])
    have hkw' : ∀ f, kwAt = some f → ∀ c ∈ cs, c.KwIs f := fun f hf c' h => hkw f hf c' (by simp [h])
    cases c with
    | provide k kw =>
      obtain ⟨w1, ts1, hgen, hser1, hg1, hts, _, _⟩ := generate_good env s hs _ rnd k kw w q kwOf ts hg
      obtain ⟨evs, ids, h1, h2, h3, h4, h5, h6⟩ := ih hcs' hkw' w1 _ _ ts1 hg1 (by
        intro f hf k' i hi
        by_cases hk : k' = k
        · subst hk
          simp only [Function.update_self, List.mem_append, List.mem_singleton] at hi
          rcases hi with h | rfl
          · rw [Function.update_of_ne (by have := hg.bound _ i h; omega)]
            exact hq f hf _ i h
          · rw [Function.update_self]
            exact hkw f hf (.provide k' kw) (by simp)
        · rw [Function.update_of_ne hk] at hi
          rw [Function.update_of_ne (by have := hg.bound _ i hi; omega)]
          exact hq f hf _ i hi)
      refine ⟨evs, ids, ?_, h2, h3, h4, ?_, h6⟩
      · simp only [runMul, hgen, ok_bind]
        exact h1
      · intro i hi hlt
        obtain ⟨k', hk'⟩ := h5 i hi (by omega)
        by_cases hk : k' = k
        · subst hk
          simp only [Function.update_self, List.mem_append, List.mem_singleton] at hk'
          rcases hk' with h | rfl
          · exact ⟨_, h⟩
          · omega
        · rw [Function.update_of_ne hk] at hk'
          exact ⟨_, hk'⟩
    | mul k kw x y =>
      obtain ⟨hxs, hys, hx, hy⟩ := hcs (.mul k kw x y) (by simp)
      obtain ⟨out, w', q', kwOf', ts', i, zs, a, b, g1, g2, g3, g4, g5, g6, g7, g8, g9, g10, _, _, g11, g12, g13, g14, g15⟩ :=
        mul_step env s hs op trunc rnd w q kwOf ts hg k kw x y hx hy hxs hys
      obtain ⟨evs, ids, h1, h2, h3, h4, h5, h6⟩ := ih hcs' hkw' w' q' kwOf' ts' g2 (by
        intro f hf k' j hj
        have := g5 k' j hj
        rw [g7 j (hg.bound _ j this)]
        exact hq f hf k' j this)
      refine ⟨⟨k, kw, x, y, out⟩ :: evs, i :: ids, ?_, ?_, by simp [countMul, h3], ?_, ?_, ?_⟩
      · simp only [runMul, g1, ok_bind, h1]
        rfl
      · rw [List.map_cons, List.map_cons, h2, g9, g10]
      · rw [List.nodup_cons]
        refine ⟨?_, h4⟩
        intro hi
        obtain ⟨k', hk'⟩ := h5 i hi g4
        exact g6 k' hk'
      · intro j hj hlt
        rcases List.mem_cons.mp hj with rfl | hj
        · rcases g8 with ⟨h, _⟩ | ⟨_, h, _⟩
          · exact ⟨k, h⟩
          · omega
        · obtain ⟨k', hk'⟩ := h5 j hj (by omega)
          exact ⟨k', g5 k' j hk'⟩
      · intro e he
        rcases List.mem_cons.mp he with rfl | he
        · refine ⟨g11, g12, zs, g13, g14, ?_⟩
          intro hsome
          obtain ⟨f, hf⟩ := Option.isSome_iff_exists.mp hsome
          have hkwOf : kwOf' i = kw := by
            rcases g8 with ⟨h, _⟩ | ⟨_, _, h, _⟩
            · rw [g7 i (hg.bound _ i h), hq f hf k i h]
              exact (hkw f hf (.mul k kw x y) (by simp)).symm
            · exact h
          rw [g15, hkwOf, sub_self, add_zero]
        · exact h6 e he

/-! ## C20 -/

/-- C20: for every history of provisioning and multiplications, with any operations, shapes and keyword arguments, every
product is carried out; in each product every party uses one and the same triple in the mask step and in the
multiplication step, and different products use different triples. -/
theorem C20_triples_used_once (env : Env) (s : Session) (hs : s.Live env) (op : (k : K) → Kw → A k →+ B k →+ C k)
    (trunc : (k : K) → Config → C k → C k) (rnd : (k : K) → Nat → TripleRand (A k) (B k) (C k))
    (cs : List (MulCmd K Kw A B)) (hcs : ∀ c ∈ cs, c.Ok env s) :
    ∃ (evs : List (MulEvent K Kw A B C)) (ids : List Nat), runMul env s (fun k kw a b => op k kw a b) trunc rnd cs World.empty = .ok evs ∧
      evs.map (fun e => (e.out.maskIds, e.out.mulIds))
        = ids.map (fun i => (List.replicate s.nrParties i, List.replicate s.nrParties i)) ∧
      ids.length = countMul cs ∧ ids.Nodup := by
  rcases isEmpty_or_nonempty Kw with hE | hN
  · -- without keyword arguments there are no commands
    cases cs with
    | nil => exact ⟨[], [], rfl, rfl, rfl, by simp⟩
    | cons c cs => cases c with
      | provide k kw => exact hE.elim kw
      | mul k kw x y => exact hE.elim kw
  · obtain ⟨kw0⟩ := hN
    obtain ⟨evs, ids, h1, h2, h3, h4, _, _⟩ := run_ok env s hs op trunc rnd none cs hcs (by simp) World.empty (fun _ => [])
      (fun _ => kw0) (fun k _ _ => ⟨0, ⟨0, none, {}, 0⟩, ⟨0, none, {}, 0⟩, ⟨0, none, {}, 0⟩⟩) (good_empty ..) (by simp)
    exact ⟨evs, ids, h1, h2, h3, h4⟩

/-! ## C18 -/

/-- C18: in every history in which the keyword arguments of a product are determined by operation and shapes (always so
for `mul` and `matmul`, which have none), the shares of every product add up to `op` of the two secrets before the
two-party truncation, whatever the triples and however the secrets are shared. -/
theorem C18_spdz_products (env : Env) (s : Session) (hs : s.Live env) (op : (k : K) → Kw → A k →+ B k →+ C k)
    (trunc : (k : K) → Config → C k → C k) (rnd : (k : K) → Nat → TripleRand (A k) (B k) (C k)) (kwAt : K → Kw)
    (cs : List (MulCmd K Kw A B)) (hcs : ∀ c ∈ cs, c.Ok env s)
    (hkw : ∀ c ∈ cs, c.KwIs kwAt) :
    ∃ evs, runMul env s (fun k kw a b => op k kw a b) trunc rnd cs World.empty = .ok evs ∧ evs.length = countMul cs ∧
      ∀ e ∈ evs, e.out.result.session = s ∧ e.out.result.shares.map (·.sessionUuid) = s.rankToUuid.map some ∧
        ∃ zs, e.out.result.shares.map (·.tensor) = (if s.nrParties = 2 then zs.map (trunc e.k s.config) else zs) ∧
          zs.length = s.nrParties ∧ zs.sum = op e.k e.kw e.x.value e.y.value := by
  cases cs with
  | nil => exact ⟨[], rfl, rfl, by simp⟩
  | cons c cs =>
    obtain ⟨k0, _⟩ : ∃ k : K, True := by cases c with
      | provide k _ => exact ⟨k, trivial⟩
      | mul k _ _ _ => exact ⟨k, trivial⟩
    obtain ⟨evs, ids, h1, h2, h3, h4, _, h6⟩ := run_ok env s hs op trunc rnd (some kwAt) (c :: cs) hcs
      (by intro f hf; cases hf; exact hkw) World.empty (fun _ => [])
      (fun _ => kwAt k0) (fun k _ _ => ⟨0, ⟨0, none, {}, 0⟩, ⟨0, none, {}, 0⟩, ⟨0, none, {}, 0⟩⟩) (good_empty ..) (by simp)
    refine ⟨evs, h1, ?_, ?_⟩
    · have := congrArg List.length h2
      simpa [h3] using this
    · intro e he
      obtain ⟨a1, a2, zs, b1, b2, b3⟩ := h6 e he
      exact ⟨a1, a2, zs, b1, b2, b3 rfl⟩

/-- C18: one product of two secrets with more than two parties, read at the API: the result reconstructs to
`op` of the two reconstructed secrets. -/
theorem C18_spdz_reconstruct (env : Env) (s : Session) (hs : s.Live env) (hn : s.nrParties ≠ 2)
    (op : (k : K) → Kw → A k →+ B k →+ C k)
    (trunc : (k : K) → Config → C k → C k) (rnd : (k : K) → Nat → TripleRand (A k) (B k) (C k)) (k : K) (kw : Kw)
    (x : MPCTensor (A k)) (y : MPCTensor (B k)) (hx : x.WF env) (hy : y.WF env) (hxs : x.session = s) (hys : y.session = s)
    (a : A k) (b : B k) (ha : x.reconstruct = .ok a) (hb : y.reconstruct = .ok b) :
    ∃ out w', mulMaster env (fun k kw a b => op k kw a b) trunc rnd k kw World.empty x y = .ok (out, w') ∧
      out.result.WF env ∧ out.result.reconstruct = .ok (op k kw a b) := by
  obtain ⟨out, w', q', kwOf', ts', i, zs, a', b', g1, g2, g3, g4, g5, g6, g7, g8, g9, g10, _, _, g11, g12, g13, g14, g15⟩ :=
    mul_step env s hs op trunc rnd World.empty (fun _ => []) (fun _ => kw)
      (fun k _ _ => ⟨0, ⟨0, none, {}, 0⟩, ⟨0, none, {}, 0⟩, ⟨0, none, {}, 0⟩⟩) (good_empty ..) k kw x y hx hy hxs hys
  have hwf : out.result.WF env := ⟨by rw [g11]; exact hs.toReady, by rw [g12, g11]⟩
  refine ⟨out, w', g1, hwf, ?_⟩
  rw [WF.reconstruct hwf, g13, if_neg hn, g15]
  rw [WF.reconstruct hx] at ha
  rw [WF.reconstruct hy] at hb
  cases ha; cases hb
  rcases g8 with ⟨h, _⟩ | ⟨_, _, h, _⟩
  · simp at h
  · rw [h, sub_self, add_zero]
    rfl

/-! ## C19 -/

/-- C19 (partial): with masks drawn from the whole ring every pair of opened values is possible, in exactly one way, for
every pair of secrets.  Missing: the code draws the masks from half of the ring, see `C19_half_range_leaks`. -/
theorem C19_masks_hide_partial (env : Env) (s : Session) (hs : s.Live env) (op : (k : K) → Kw → A k →+ B k →+ C k)
    (trunc : (k : K) → Config → C k → C k) (rnd : (k : K) → Nat → TripleRand (A k) (B k) (C k)) (k : K) (kw : Kw)
    (x : MPCTensor (A k)) (y : MPCTensor (B k)) (hx : x.WF env) (hy : y.WF env) (hxs : x.session = s) (hys : y.session = s)
    (e : A k) (d : B k) :
    ∃! m : A k × B k, ∃ out w',
      mulMaster env (fun k kw a b => op k kw a b) trunc
        (Function.update rnd k fun j => { rnd k j with a := m.1, b := m.2 }) k kw World.empty x y = .ok (out, w') ∧
      out.eps = e ∧ out.delta = d := by
  have key : ∀ m : A k × B k, ∃ out w', mulMaster env (fun k kw a b => op k kw a b) trunc
        (Function.update rnd k fun j => { rnd k j with a := m.1, b := m.2 }) k kw World.empty x y = .ok (out, w') ∧
      out.eps = x.value - m.1 ∧ out.delta = y.value - m.2 := by
    intro m
    obtain ⟨out, w', q', kwOf', ts', i, zs, a', b', g1, g2, g3, g4, g5, g6, g7, g8, g9, g10, g16, g17, _⟩ :=
      mul_step env s hs op trunc (Function.update rnd k fun j => { rnd k j with a := m.1, b := m.2 }) World.empty
        (fun _ => []) (fun _ => kw)
        (fun k _ _ => ⟨0, ⟨0, none, {}, 0⟩, ⟨0, none, {}, 0⟩, ⟨0, none, {}, 0⟩⟩) (good_empty ..) k kw x y hx hy hxs hys
    rcases g8 with ⟨h, _⟩ | ⟨_, _, _, h1, h2⟩
    · simp at h
    · simp only [Function.update_self] at h1 h2
      exact ⟨out, w', g1, by rw [g16, h1], by rw [g17, h2]⟩
  refine ⟨(x.value - e, y.value - d), ?_, ?_⟩
  · obtain ⟨out, w', h1, h2, h3⟩ := key (x.value - e, y.value - d)
    exact ⟨out, w', h1, by rw [h2]; simp, by rw [h3]; simp⟩
  · rintro m ⟨out, w', h1, h2, h3⟩
    obtain ⟨out', w'', h1', h2', h3'⟩ := key m
    rw [h1] at h1'
    cases h1'
    rw [h2] at h2'
    rw [h3] at h3'
    ext
    · rw [h2']; simp
    · rw [h3']; simp

/-! ## The products of the code as bi-additive maps -/

/-- A product of tensors in which every element of the result is a sum of products of elements of the operands: `pairs j`
lists the positions multiplied for position `j`.  Broadcasting `mul`, `matmul`, `conv2d` and `conv_transpose2d` are all of
this form. -/
def bilin {R ι κ o : Type} [CommRing R] (pairs : o → List (ι × κ)) : (ι → R) →+ (κ → R) →+ (o → R) :=
  AddMonoidHom.mk' (fun x => AddMonoidHom.mk' (fun y j => ((pairs j).map fun p => x p.1 * y p.2).sum) (by
      intro a b
      funext j
      rw [Pi.add_apply, ← List.sum_map_add]
      simp [mul_add])) (by
    intro a b
    ext y j
    simp only [AddMonoidHom.mk'_apply, AddMonoidHom.add_apply, Pi.add_apply]
    rw [← List.sum_map_add]
    simp [add_mul])

/-- element-wise product with broadcasting: `l` and `r` say which element of each operand stands at a position -/
def mulPairs {ι κ o : Type} (l : o → ι) (r : o → κ) (j : o) : List (ι × κ) := [(l j, r j)]

/-- matrix product -/
def matmulPairs {m n l : Nat} (j : Fin m × Fin l) : List ((Fin m × Fin n) × (Fin n × Fin l)) :=
  (List.finRange n).map fun k => ((j.1, k), (k, j.2))

/-- keyword arguments of a convolution -/
structure ConvArgs where
  stride : Nat
  padding : Nat
  dilation : Nat := 1
  deriving DecidableEq

/-- `conv2d` of one image with one channel; positions in the padding contribute nothing -/
def convPairs {h w kh kw oh ow : Nat} (c : ConvArgs) (j : Fin oh × Fin ow) : List ((Fin h × Fin w) × (Fin kh × Fin kw)) :=
  (List.finRange kh).flatMap fun u => (List.finRange kw).filterMap fun v =>
    let a := j.1.val * c.stride + u.val * c.dilation
    let b := j.2.val * c.stride + v.val * c.dilation
    if h : c.padding ≤ a ∧ a - c.padding < h ∧ c.padding ≤ b ∧ b - c.padding < w then
      some ((⟨a - c.padding, h.2.1⟩, ⟨b - c.padding, h.2.2.2⟩), (u, v))
    else none

/-- `bilin` with `matmulPairs` is the matrix product. -/
example {m n l : Nat} (x : Fin m × Fin n → I64) (y : Fin n × Fin l → I64) (i : Fin m) (j : Fin l) :
    bilin matmulPairs x y (i, j) = ∑ k, x (i, k) * y (k, j) := by
  simp only [bilin, matmulPairs, AddMonoidHom.mk'_apply, List.map_map, Function.comp_def]
  rfl

/-! ## Concrete cases -/

theorem exLive : exSession.Live exEnv where
  toReady := exReady
  ranked := by
    intro r u h
    have hr : r < 3 := (List.getElem?_eq_some_iff.mp h).1
    have : ∀ r : Nat, r < 3 → ∀ u, exSession.rankToUuid[r]? = some u →
        ((exEnv u).map (·.rank) = some (r : Int) ∧ (exEnv u).map (·.nrParties) = some 3) := by
      intro r hr u h
      have : r = 0 ∨ r = 1 ∨ r = 2 := by omega
      rcases this with rfl | rfl | rfl <;> (simp [exSession] at h; subst h; decide)
    obtain ⟨h1, h2⟩ := this r hr u h
    cases hp : exEnv u with
    | none => rw [hp] at h1; simp at h1
    | some p =>
      rw [hp] at h1 h2
      simp at h1 h2
      exact ⟨p, rfl, h1, h2⟩
  distinct := by decide
  pointers := by decide

/-- a secret of `exSession` with given shares -/
def exSecret {T : Type} (a b c : T) : MPCTensor T :=
  ⟨exSession, [⟨a, some 100, {}, 2 ^ 64⟩, ⟨b, some 101, {}, 2 ^ 64⟩, ⟨c, some 102, {}, 2 ^ 64⟩]⟩

theorem exSecret_wf {T : Type} (a b c : T) : (exSecret a b c).WF exEnv := ⟨exReady, rfl⟩

/-- triples for the examples: one key, 64-bit elements -/
def exRnd (_ : Unit) (i : Nat) : TripleRand I64 I64 I64 :=
  ⟨BitVec.ofNat 64 (17 * i + 5), BitVec.ofNat 64 (13 * i + 7), fun j => BitVec.ofNat 64 (1000 * i + j + 3),
    fun j => BitVec.ofNat 64 (900 * i + 2 * j), fun j => BitVec.ofNat 64 (j + 11)⟩

/-- a history with one triple provided ahead and two products: 6 * 7 and (-1) * 6 -/
example : (match runMul exEnv exSession (fun (_ : Unit) (_ : Unit) (a b : I64) => AddMonoidHom.mul a b) (fun _ _ z => z) exRnd
      [.provide () (), .mul () () (exSecret 1 2 3) (exSecret 3 3 1), .mul () () (exSecret (-4) 2 1) (exSecret 1 2 3)]
      World.empty with
    | .ok evs => evs.map fun e => (e.out.maskIds, e.out.mulIds, e.out.result.reconstruct)
    | .error _ => []) = [([0, 0, 0], [0, 0, 0], .ok 42), ([1, 1, 1], [1, 1, 1], .ok (-6))] := by
  decide +kernel

/-! ## The masks of the code -/

/-- C19 is false for the masks the code draws, which are not negative: the opened value then always lies at most `2^63 - 1`
below the secret, so every opened value rules half of all secrets out. -/
theorem C19_half_range_leaks (env : Env) (s : Session) (hs : s.Live env)
    (trunc : Config → I64 → I64) (rnd : Nat → TripleRand I64 I64 I64)
    (hrnd : ∀ i, 0 ≤ (rnd i).a.toInt)
    (x : MPCTensor I64) (y : MPCTensor I64) (hx : x.WF env) (hy : y.WF env) (hxs : x.session = s) (hys : y.session = s) :
    ∃ out w', mulMaster (K := Unit) (Kw := Unit) env (fun _ _ a b => AddMonoidHom.mul a b) (fun _ => trunc) (fun _ => rnd) () ()
        World.empty x y = .ok (out, w') ∧
      0 ≤ (x.value - out.eps).toInt := by
  obtain ⟨out, w', q', kwOf', ts', i, zs, a', b', g1, g2, g3, g4, g5, g6, g7, g8, g9, g10, g16, g17, _⟩ :=
    mul_step (K := Unit) (Kw := Unit) (A := fun _ => I64) (B := fun _ => I64) (C := fun _ => I64) env s hs
      (fun _ _ => AddMonoidHom.mul) (fun _ => trunc) (fun _ => rnd) World.empty (fun _ => []) (fun _ => ())
      (fun k _ _ => ⟨0, ⟨0, none, {}, 0⟩, ⟨0, none, {}, 0⟩, ⟨0, none, {}, 0⟩⟩) (good_empty ..) () () x y hx hy hxs hys
  refine ⟨out, w', g1, ?_⟩
  rcases g8 with ⟨h, _⟩ | ⟨_, _, _, h1, _⟩
  · simp at h
  · rw [g16, h1, sub_sub_cancel]
    exact hrnd i

/-- With such masks the value 0 can be opened for the secret 5 but not for the secret -5. -/
example : (match mulMaster (K := Unit) (Kw := Unit) exEnv (fun _ _ (a b : I64) => AddMonoidHom.mul a b) (fun _ _ z => z) exRnd () ()
      World.empty (exSecret 0 2 3) (exSecret 3 3 1) with
    | .ok (out, _) => some out.eps
    | .error _ => none) = some 0 ∧ (exSecret 0 2 3).value = (5 : I64) ∧ ((-5 : I64) - 0).toInt < 0 := by
  decide +kernel

/-! ## C23 -/

/-- C23 (partial): in histories in which the keyword arguments are determined by operation and shapes, every product uses
a triple generated with its own keyword arguments, and comes out right.  Missing: histories that mix keyword arguments
for one pair of shapes, see `C23_kwargs_not_in_key`. -/
theorem C23_conv_triples_partial {R : Type} [CommRing R] {ι κ o : K → Type} (env : Env) (s : Session) (hs : s.Live env)
    (hn : s.nrParties ≠ 2) (pairs : (k : K) → Kw → o k → List (ι k × κ k))
    (trunc : (k : K) → Config → (o k → R) → o k → R)
    (rnd : (k : K) → Nat → TripleRand (ι k → R) (κ k → R) (o k → R)) (kwAt : K → Kw)
    (cs : List (MulCmd K Kw (fun k => ι k → R) fun k => κ k → R)) (hcs : ∀ c ∈ cs, c.Ok env s)
    (hkw : ∀ c ∈ cs, c.KwIs kwAt) :
    ∃ evs, runMul env s (fun k kw a b => bilin (pairs k kw) a b) trunc rnd cs World.empty = .ok evs ∧
      evs.length = countMul cs ∧
      ∀ e ∈ evs, e.out.result.reconstruct = .ok fun j => ((pairs e.k e.kw j).map fun p => e.x.value p.1 * e.y.value p.2).sum := by
  obtain ⟨evs, h1, h2, h3⟩ := C18_spdz_products env s hs (fun k kw => bilin (pairs k kw)) trunc rnd kwAt cs hcs hkw
  refine ⟨evs, h1, h2, ?_⟩
  intro e he
  obtain ⟨a1, a2, zs, b1, b2, b3⟩ := h3 e he
  have hwf : e.out.result.WF env := ⟨by rw [a1]; exact hs.toReady, by rw [a2, a1]⟩
  rw [WF.reconstruct hwf, b1, if_neg hn, b3]
  rfl

/-- a triple for a 2x2 image and a 1x1 kernel -/
def exConvRnd (_ : Unit) (_ : Nat) : TripleRand (Fin 2 × Fin 2 → I64) (Fin 1 × Fin 1 → I64) (Fin 2 × Fin 2 → I64) :=
  ⟨fun p => if p = (0, 0) then 5 else 9, fun _ => 7, fun _ _ => 1, fun _ _ => 2, fun _ _ => 3⟩

/-- C23 fails: a triple provided for stride 1 is used by a convolution with stride 2 and padding 1 of the same shapes, and
the result is wrong: at position (0, 0) it is 35 instead of 0. -/
theorem C23_kwargs_not_in_key :
    let op := fun (_ : Unit) (c : ConvArgs) (x : Fin 2 × Fin 2 → I64) (y : Fin 1 × Fin 1 → I64) =>
      bilin (convPairs (oh := 2) (ow := 2) c) x y
    let x := exSecret (fun (_ : Fin 2 × Fin 2) => (1 : I64)) (fun _ => 2) (fun _ => 3)
    let y := exSecret (fun (_ : Fin 1 × Fin 1) => (1 : I64)) (fun _ => 0) (fun _ => 0)
    (MulCmd.mul () ⟨2, 1, 1⟩ x y : MulCmd Unit ConvArgs (fun _ => Fin 2 × Fin 2 → I64) fun _ => Fin 1 × Fin 1 → I64).Ok exEnv exSession ∧
    ∃ evs v, runMul exEnv exSession op (fun _ _ z => z) exConvRnd [.provide () ⟨1, 0, 1⟩, .mul () ⟨2, 1, 1⟩ x y] World.empty
        = .ok evs ∧ evs.map (fun e => e.out.result.reconstruct) = [.ok v] ∧
      v (0, 0) = 35 ∧ op () ⟨2, 1, 1⟩ x.value y.value (0, 0) = 0 := by
  refine ⟨⟨rfl, rfl, exSecret_wf .., exSecret_wf ..⟩, _, _, rfl, rfl, ?_, ?_⟩ <;> decide +kernel

end SyMPC
