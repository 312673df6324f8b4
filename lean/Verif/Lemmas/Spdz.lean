import Verif.Spec.Spdz
import Verif.Lemmas.Share
import Mathlib.Algebra.BigOperators.Intervals
import Mathlib.Algebra.Group.Hom.Basic
import Mathlib.Logic.Function.Basic

namespace SyMPC

theorem sum_range_list {M : Type} [AddCommMonoid M] (n : Nat) (f : Nat → M) :
    ((List.range n).map f).sum = ∑ i ∈ Finset.range n, f i := rfl

theorem list_eq_map_range {α : Type} (d : α) (l : List α) (n : Nat) (h : l.length = n) :
    l = (List.range n).map fun r => l.getD r d := by
  apply List.ext_getElem
  · simp [h]
  · intro i h1 h2
    simp [List.getD_eq_getElem?_getD, List.getElem?_eq_getElem h1]

/-! ## stores -/

section
variable {K : Type} {V : K → Type} [DecidableEq K]

theorem Store.set_same (s : Store K V) (k : K) (l : List (V k)) : s.set k l k = some l := by simp [Store.set]

theorem Store.set_ne (s : Store K V) (k k' : K) (l : List (V k)) (h : k' ≠ k) : s.set k l k' = s k' := by
  simp [Store.set, h]

theorem Store.add_same (s : Store K V) (k : K) (l : List (V k)) : ((s.add k l) k).getD [] = (s k).getD [] ++ l := by
  unfold Store.add
  cases h : s k <;> simp [Store.set_same]

theorem Store.add_ne (s : Store K V) (k k' : K) (l : List (V k)) (h : k' ≠ k) : (s.add k l) k' = s k' := by
  unfold Store.add
  cases s k <;> simp [Store.set_ne, h]

/-- removal of the first primitive -/
def Store.pop (s : Store K V) (k : K) : Store K V :=
  match s k with
  | some (_ :: l) => s.set k l
  | _ => s

theorem Store.get_cons (s : Store K V) (k : K) (rm : Bool) (p : V k) (l : List (V k)) (h : (s k).getD [] = p :: l) :
    s.get k rm = .ok (p, if rm then s.pop k else s) := by
  unfold Store.get Store.pop
  cases hs : s k with
  | none => rw [hs] at h; simp at h
  | some l' =>
    rw [hs] at h
    simp only [Option.getD_some] at h
    subst h
    rfl

theorem Store.get_nil (s : Store K V) (k : K) (rm : Bool) (h : (s k).getD [] = []) : s.get k rm = .error .emptyStore := by
  unfold Store.get
  cases hs : s k with
  | none => rfl
  | some l' =>
    rw [hs] at h
    simp only [Option.getD_some] at h
    subst h
    rfl

theorem Store.pop_same (s : Store K V) (k : K) : ((s.pop k) k).getD [] = ((s k).getD []).tail := by
  unfold Store.pop
  cases hs : s k with
  | none => simp [hs]
  | some l =>
    cases l with
    | nil => simp [hs]
    | cons a l => simp [Store.set_same]

theorem Store.pop_ne (s : Store K V) (k k' : K) (h : k' ≠ k) : (s.pop k) k' = s k' := by
  unfold Store.pop
  cases hs : s k with
  | none => rfl
  | some l =>
    cases l with
    | nil => rfl
    | cons a l => exact Store.set_ne s k k' l h

end

/-! ## generating triples -/

section
variable {A B C : Type} [AddCommGroup A] [AddCommGroup B] [AddCommGroup C]

/-- the tensor of share `i` of `n + 2` -/
def shareTensorOf {T : Type} [Sub T] (secret : T) (n : Nat) (draws : Nat → T) (i : Nat) : T :=
  if i = 0 then draws 0 else if i < n + 1 then draws i - draws (i - 1) else secret - draws (i - 1)

theorem sum_shareTensorOf {T : Type} [AddCommGroup T] (secret : T) (n : Nat) (draws : Nat → T) :
    ∑ i ∈ Finset.range (n + 2), shareTensorOf secret n draws i = secret := by
  rw [← sum_range_list]
  exact sum_range_telescope draws secret n

theorem getTriples_ok (env : Env) (op : A → B → C) (n serial : Nat) (rnd : TripleRand A B C) :
    ∃ T : Nat → Triple A B C, getTriples env op (n + 2) serial rnd = .ok ((List.range (n + 2)).map fun r => [T r]) ∧
      (∀ r, (T r).serial = serial) ∧
      ∑ r ∈ Finset.range (n + 2), (T r).a.tensor = rnd.a ∧ ∑ r ∈ Finset.range (n + 2), (T r).b.tensor = rnd.b ∧
      ∑ r ∈ Finset.range (n + 2), (T r).c.tensor = op rnd.a rnd.b := by
  refine ⟨fun r => ⟨serial, ⟨shareTensorOf rnd.a n rnd.da r, none, { encoderPrecision := 0 }, 2 ^ 64⟩,
    ⟨shareTensorOf rnd.b n rnd.db r, none, { encoderPrecision := 0 }, 2 ^ 64⟩,
    ⟨shareTensorOf (op rnd.a rnd.b) n rnd.dc r, none, { encoderPrecision := 0 }, 2 ^ 64⟩⟩, ?_, fun _ => rfl,
    sum_shareTensorOf .., sum_shareTensorOf .., sum_shareTensorOf ..⟩
  unfold getTriples
  dsimp only
  rw [generateShares_eq env ⟨rnd.a, none, _, _⟩ rfl, ok_bind, generateShares_eq env ⟨rnd.b, none, _, _⟩ rfl, ok_bind,
    generateShares_eq env ⟨op rnd.a rnd.b, none, _, _⟩ rfl, ok_bind, pure_eq_ok]
  simp only [sharesOf, ite_self]
  rw [List.zip_map', List.zip_map', List.map_map]
  rfl

omit [AddCommGroup A] [AddCommGroup B] [AddCommGroup C] in
theorem tagAll_eq (us : List Nat) (ps : List (List (Triple A B C))) (h : us.length = ps.length) :
    tagAll us ps = List.zipWith (fun u p => p.map (Triple.tag u)) us ps := by
  induction us generalizing ps with
  | nil => cases ps with
    | nil => rfl
    | cons p ps => simp at h
  | cons u us ih => cases ps with
    | nil => simp at h
    | cons p ps => simp [tagAll, ih ps (by simpa using h)]

end

/-! ## the invariant -/

variable {K Kw : Type} [DecidableEq K] {A B C : K → Type}

theorem foldl_populate (k : K) (l : List (List (Triple (A k) (B k) (C k)) × PartySession)) (w : World K A B C)
    (hn : (l.map fun e => e.2.uuid).Nodup) :
    (l.foldl (fun w e => w.populate e.2.uuid k e.1) w).serial = w.serial ∧
    (∀ e ∈ l, (l.foldl (fun w e => w.populate e.2.uuid k e.1) w).stores e.2.uuid = (w.stores e.2.uuid).add k e.1) := by
  have aux : ∀ (l : List (List (Triple (A k) (B k) (C k)) × PartySession)) (w : World K A B C) (u : Nat),
      u ∉ l.map (fun e => e.2.uuid) → (l.foldl (fun w e => w.populate e.2.uuid k e.1) w).stores u = w.stores u := by
    intro l
    induction l with
    | nil => intro w u _; rfl
    | cons e l ih =>
      intro w u hu
      simp only [List.map_cons, List.mem_cons, not_or] at hu
      rw [List.foldl_cons, ih _ _ hu.2]
      simp [World.populate, hu.1]
  induction l generalizing w with
  | nil => simp
  | cons e l ih =>
    simp only [List.map_cons, List.nodup_cons] at hn
    obtain ⟨h1, h2⟩ := ih (w.populate e.2.uuid k e.1) hn.2
    refine ⟨by rw [List.foldl_cons, h1]; rfl, ?_⟩
    intro e' he'
    rw [List.foldl_cons]
    rcases List.mem_cons.mp he' with rfl | he'
    · rw [aux _ _ _ hn.1]
      simp [World.populate]
    · rw [h2 e' he']
      have : e'.2.uuid ≠ e.2.uuid := by
        intro heq
        exact hn.1 (heq ▸ List.mem_map.mpr ⟨e', he', rfl⟩)
      simp [World.populate, this]

variable [∀ k, AddCommGroup (A k)] [∀ k, AddCommGroup (B k)] [∀ k, AddCommGroup (C k)]

/-- The stores of all parties hold, for every key `k`, the same triples `q k` in the same order; `kwOf i` are the keyword
arguments triple `i` was generated with and `ts k i r` is what party `r` holds of it. -/
structure World.Good (op : (k : K) → Kw → A k → B k → C k) (s : Session) (w : World K A B C) (q : K → List Nat)
    (kwOf : Nat → Kw) (ts : (k : K) → Nat → Nat → Triple (A k) (B k) (C k)) : Prop where
  stores : ∀ (r : Nat) u, s.rankToUuid[r]? = some u → ∀ k, (w.stores u k).getD [] = (q k).map fun i => ts k i r
  serial : ∀ k, ∀ i ∈ q k, ∀ r, (ts k i r).serial = i
  tags : ∀ k, ∀ i ∈ q k, ∀ (r : Nat) u, s.rankToUuid[r]? = some u →
    (ts k i r).a.sessionUuid = some u ∧ (ts k i r).b.sessionUuid = some u
  sums : ∀ k, ∀ i ∈ q k, ∑ r ∈ Finset.range s.nrParties, (ts k i r).c.tensor
    = op k (kwOf i) (∑ r ∈ Finset.range s.nrParties, (ts k i r).a.tensor) (∑ r ∈ Finset.range s.nrParties, (ts k i r).b.tensor)
  bound : ∀ k, ∀ i ∈ q k, i < w.serial
  nodup : ∀ k, (q k).Nodup
  disjoint : ∀ k k' i, i ∈ q k → i ∈ q k' → k = k'

omit [DecidableEq K] in
theorem good_empty (op : (k : K) → Kw → A k → B k → C k) (s : Session) (kwOf : Nat → Kw)
    (ts : (k : K) → Nat → Nat → Triple (A k) (B k) (C k)) :
    (World.empty : World K A B C).Good op s (fun _ => []) kwOf ts where
  stores := by intro r u _ k; rfl
  serial := by simp
  tags := by simp
  sums := by simp
  bound := by simp
  nodup := by simp
  disjoint := by simp

/-- generating a triple keeps the invariant and appends one number to one queue -/
theorem generate_good (env : Env) (s : Session) (hs : s.Live env) (op : (k : K) → Kw → A k → B k → C k)
    (rnd : (k : K) → Nat → TripleRand (A k) (B k) (C k)) (k : K) (kw : Kw) (w : World K A B C) (q : K → List Nat)
    (kwOf : Nat → Kw) (ts : (k : K) → Nat → Nat → Triple (A k) (B k) (C k)) (hg : w.Good op s q kwOf ts) :
    ∃ w' ts', generatePrimitives env s op rnd k kw w = .ok w' ∧ w'.serial = w.serial + 1 ∧
      w'.Good op s (Function.update q k (q k ++ [w.serial])) (Function.update kwOf w.serial kw) ts' ∧
      (∀ k' i, i < w.serial → ts' k' i = ts k' i) ∧
      (∑ r ∈ Finset.range s.nrParties, (ts' k w.serial r).a.tensor = (rnd k w.serial).a) ∧
      (∑ r ∈ Finset.range s.nrParties, (ts' k w.serial r).b.tensor = (rnd k w.serial).b) := by
  obtain ⟨n, hn⟩ : ∃ n, s.nrParties = n + 2 := ⟨s.nrParties - 2, by have := hs.two; omega⟩
  obtain ⟨T, hT, hser, hsa, hsb, hsc⟩ := getTriples_ok env (op k kw) n w.serial (rnd k w.serial)
  let U : Nat → Nat := fun r => s.rankToUuid.getD r 0
  have hU : s.rankToUuid = (List.range (n + 2)).map U := list_eq_map_range 0 _ _ (by rw [hs.ranks, hn])
  have hUr : ∀ (r : Nat) u, s.rankToUuid[r]? = some u → u = U r ∧ r < n + 2 := by
    intro r u h
    refine ⟨by simp [U, List.getD_eq_getElem?_getD, h], ?_⟩
    have := (List.getElem?_eq_some_iff.mp h).1
    rw [hs.ranks, hn] at this
    exact this
  have htag : tagAll s.rankToUuid ((List.range (n + 2)).map fun r => [T r])
      = (List.range (n + 2)).map fun r => [(T r).tag (U r)] := by
    rw [tagAll_eq _ _ (by rw [hs.ranks, hn]; simp), hU, List.zipWith_map, List.zipWith_self]
    rfl
  have hplen : s.sessionPtrs.length = n + 2 := by
    have := congrArg List.length hs.pointers
    rw [hs.ranks, hn] at this
    simpa using this
  obtain ⟨hser', hst'⟩ := foldl_populate k (((List.range (n + 2)).map fun r => [(T r).tag (U r)]).zip s.sessionPtrs)
    ({ w with serial := w.serial + 1 } : World K A B C) (by
      have : (((List.range (n + 2)).map fun r => [(T r).tag (U r)]).zip s.sessionPtrs).map (fun e => e.2.uuid)
          = s.sessionPtrs.map (·.uuid) := by
        rw [← List.map_snd_zip (l₁ := (List.range (n + 2)).map fun r => [(T r).tag (U r)]) (l₂ := s.sessionPtrs)
          (by simp [hplen]), List.map_map]
        simp [Function.comp_def, List.map_snd_zip, hplen]
      rw [this, hs.pointers]
      exact hs.distinct)
  generalize hw' : (((List.range (n + 2)).map fun r => [(T r).tag (U r)]).zip s.sessionPtrs).foldl
    (fun w e => w.populate e.2.uuid k e.1) ({ w with serial := w.serial + 1 } : World K A B C) = w' at hser' hst'
  have hgen : generatePrimitives env s op rnd k kw w = .ok w' := by
    unfold generatePrimitives
    rw [hn, hT, ok_bind, htag]
    unfold transferPrimitives
    rw [if_neg (by simp [hplen])]
    rw [← hw']
  have hstore : ∀ r, r < n + 2 → w'.stores (U r) = (w.stores (U r)).add k [(T r).tag (U r)] := by
    intro r hr
    have hp : r < s.sessionPtrs.length := by omega
    have huu : s.sessionPtrs[r].uuid = U r := by
      have h1 : (s.sessionPtrs.map (·.uuid))[r]? = some (s.sessionPtrs[r].uuid) := by simp [hp]
      rw [hs.pointers] at h1
      exact (hUr r _ h1).1
    have := hst' ([(T r).tag (U r)], s.sessionPtrs[r]) (by
      rw [List.mem_iff_getElem?]
      refine ⟨r, ?_⟩
      rw [List.getElem?_zip_eq_some]
      exact ⟨by simp [hr], by simp⟩)
    rw [← huu]
    simpa [huu] using this
  let ts' : (k : K) → Nat → Nat → Triple (A k) (B k) (C k) :=
    Function.update ts k fun i r => if i = w.serial then (T r).tag (U r) else ts k i r
  have hold : ∀ k' i, i < w.serial → ts' k' i = ts k' i := by
    intro k' i hi
    by_cases hk : k' = k
    · subst hk
      simp only [ts', Function.update_self, show i ≠ w.serial by omega, if_false]
    · simp only [ts', Function.update_of_ne hk]
  have hnew : ∀ r, ts' k w.serial r = (T r).tag (U r) := by
    intro r
    simp only [ts', Function.update_self, if_true]
  have hmem : ∀ k' i, i ∈ Function.update q k (q k ++ [w.serial]) k' → i ∈ q k' ∨ (k' = k ∧ i = w.serial) := by
    intro k' i hi
    by_cases hk : k' = k
    · subst hk
      simp only [Function.update_self, List.mem_append, List.mem_singleton] at hi
      rcases hi with h | h
      · exact .inl h
      · exact .inr ⟨rfl, h⟩
    · rw [Function.update_of_ne hk] at hi
      exact .inl hi
  refine ⟨w', ts', hgen, hser', ?_, hold, ?_, ?_⟩
  · constructor
    · intro r u hu k'
      obtain ⟨rfl, hr⟩ := hUr r u hu
      rw [hstore r hr]
      by_cases hk : k' = k
      · subst hk
        rw [Store.add_same, hg.stores r _ hu, Function.update_self, List.map_append]
        congr 1
        · apply List.map_congr_left
          intro i hi
          rw [hold _ _ (hg.bound _ i hi)]
        · simp [hnew]
      · rw [Store.add_ne _ _ _ _ hk, hg.stores r _ hu, Function.update_of_ne hk]
        apply List.map_congr_left
        intro i hi
        rw [hold _ _ (hg.bound _ i hi)]
    · intro k' i hi r
      rcases hmem k' i hi with h | ⟨rfl, rfl⟩
      · rw [hold _ _ (hg.bound _ i h)]; exact hg.serial k' i h r
      · rw [hnew]; exact hser r
    · intro k' i hi r u hu
      rcases hmem k' i hi with h | ⟨rfl, rfl⟩
      · rw [hold _ _ (hg.bound _ i h)]; exact hg.tags k' i h r u hu
      · rw [hnew]
        obtain ⟨rfl, _⟩ := hUr r u hu
        exact ⟨rfl, rfl⟩
    · intro k' i hi
      rcases hmem k' i hi with h | ⟨rfl, rfl⟩
      · rw [hold _ _ (hg.bound _ i h), Function.update_of_ne (by have := hg.bound _ i h; omega)]
        exact hg.sums k' i h
      · simp only [hnew, Function.update_self, Triple.tag, hn, hsa, hsb, hsc]
    · intro k' i hi
      rw [hser']
      rcases hmem k' i hi with h | ⟨rfl, rfl⟩
      · have := hg.bound _ i h; simp; omega
      · simp
    · intro k'
      by_cases hk : k' = k
      · subst hk
        rw [Function.update_self, List.nodup_append]
        refine ⟨hg.nodup _, by simp, ?_⟩
        intro a ha b hb
        simp at hb
        have := hg.bound _ a ha
        omega
      · rw [Function.update_of_ne hk]; exact hg.nodup k'
    · intro k₁ k₂ i h1 h2
      rcases hmem k₁ i h1 with h1 | ⟨h1, h1'⟩ <;> rcases hmem k₂ i h2 with h2 | ⟨h2, h2'⟩
      · exact hg.disjoint _ _ _ h1 h2
      · have := hg.bound _ _ h1; omega
      · have := hg.bound _ _ h2; omega
      · rw [h1, h2]
  · simp only [hnew, Triple.tag, hn, hsa]
  · simp only [hnew, Triple.tag, hn, hsb]

/-! ## one multiplication -/

/-- the share party `r` computes before truncation -/
def mulShare {A B C : Type} [Add C] (op : A → B → C) (eps : A) (delta : B) (t : Triple A B C) (r : Nat) : C :=
  if r = 0 then t.c.tensor + op eps t.b.tensor + op t.a.tensor delta + op eps delta
  else t.c.tensor + op eps t.b.tensor + op t.a.tensor delta

omit [∀ k, AddCommGroup (A k)] [∀ k, AddCommGroup (B k)] in
theorem mulAll_ok (env : Env) (k : K) (op : A k → B k → C k) (trunc : Config → C k → C k) (eps : A k) (delta : B k)
    (U : Nat → Nat) (P : Nat → PartySession) (T : Nat → Triple (A k) (B k) (C k)) (nr : Nat) (R : List Nat)
    (hn : (R.map U).Nodup) (hP : ∀ r ∈ R, env (U r) = some (P r) ∧ (P r).rank = r ∧ (P r).nrParties = nr)
    (w : World K A B C) (hT : ∀ r ∈ R, ∃ l, (w.stores (U r) k).getD [] = T r :: l) :
    ∃ w', mulAll env k op trunc eps delta (R.map U) w
        = .ok (R.map fun r => (⟨if nr = 2 then trunc (P r).config (mulShare op eps delta (T r) r)
            else mulShare op eps delta (T r) r, some (U r), (P r).config, 2 ^ 64⟩, (T r).serial), w') ∧
      w'.serial = w.serial ∧ (∀ v, w'.stores v = if v ∈ R.map U then (w.stores v).pop k else w.stores v) := by
  induction R generalizing w with
  | nil => exact ⟨w, rfl, rfl, by simp⟩
  | cons r R ih =>
    simp only [List.map_cons, List.nodup_cons] at hn
    obtain ⟨l, hl⟩ := hT r (by simp)
    obtain ⟨hp1, hp2, hp3⟩ := hP r (by simp)
    let w1 : World K A B C := { w with stores := fun v => if v = U r then (w.stores (U r)).pop k else w.stores v }
    obtain ⟨w', h1, h2, h3⟩ := ih hn.2 (fun r' hr' => hP r' (by simp [hr'])) w1 (by
      intro r' hr'
      obtain ⟨l', hl'⟩ := hT r' (by simp [hr'])
      have : U r' ≠ U r := by
        intro he
        exact hn.1 (he ▸ List.mem_map.mpr ⟨r', hr', rfl⟩)
      exact ⟨l', by simp [w1, this, hl']⟩)
    refine ⟨w', ?_, h2, ?_⟩
    · rw [List.map_cons, mulAll]
      have hz : mulParties env k op trunc (U r) eps delta w
          = .ok ((⟨if nr = 2 then trunc (P r).config (mulShare op eps delta (T r) r)
            else mulShare op eps delta (T r) r, some (U r), (P r).config, 2 ^ 64⟩, (T r).serial), w1) := by
        unfold mulParties
        rw [hp1]
        simp only [ok_bind]
        rw [Store.get_cons _ _ _ _ _ hl]
        simp only [ok_bind, pure_eq_ok, hp2, hp3, Nat.cast_eq_zero, if_true]
        rfl
      rw [hz]
      simp only [ok_bind, h1]
      rfl
    · intro v
      rw [h3 v]
      by_cases hv : v = U r
      · subst hv
        simp [hn.1, w1]
      · simp [w1, hv]

theorem sum_mulShare {A B C : Type} [AddCommGroup A] [AddCommGroup B] [AddCommGroup C] (f : A →+ B →+ C) (eps : A)
    (delta : B) (T : Nat → Triple A B C) (n : Nat) (hn : 0 < n) :
    ∑ r ∈ Finset.range n, mulShare (fun a b => f a b) eps delta (T r) r
      = ∑ r ∈ Finset.range n, (T r).c.tensor + f eps (∑ r ∈ Finset.range n, (T r).b.tensor)
        + f (∑ r ∈ Finset.range n, (T r).a.tensor) delta + f eps delta := by
  have h : ∀ r, mulShare (fun a b => f a b) eps delta (T r) r
      = (T r).c.tensor + f eps (T r).b.tensor + f.flip delta (T r).a.tensor + if r = 0 then f eps delta else 0 := by
    intro r
    unfold mulShare
    split <;> simp
  simp only [h, Finset.sum_add_distrib]
  rw [Finset.sum_ite_eq' (Finset.range n) 0 (fun _ => f eps delta), if_pos (by simpa using hn), ← map_sum, ← map_sum]
  rfl

/-- removing the first primitive of one queue keeps the invariant -/
theorem pop_good (op : (k : K) → Kw → A k → B k → C k) (s : Session) (w w' : World K A B C) (q : K → List Nat)
    (kwOf : Nat → Kw) (ts : (k : K) → Nat → Nat → Triple (A k) (B k) (C k)) (hg : w.Good op s q kwOf ts) (k : K)
    (hser : w'.serial = w.serial)
    (hst : ∀ (r : Nat) u, s.rankToUuid[r]? = some u → w'.stores u = (w.stores u).pop k) :
    w'.Good op s (Function.update q k (q k).tail) kwOf ts := by
  have hmem : ∀ k' i, i ∈ Function.update q k (q k).tail k' → i ∈ q k' := by
    intro k' i hi
    by_cases hk : k' = k
    · subst hk
      rw [Function.update_self] at hi
      exact List.mem_of_mem_tail hi
    · rwa [Function.update_of_ne hk] at hi
  constructor
  · intro r u hu k'
    rw [hst r u hu]
    by_cases hk : k' = k
    · subst hk
      rw [Store.pop_same, hg.stores r u hu, Function.update_self, List.map_tail]
    · rw [Store.pop_ne _ _ _ hk, hg.stores r u hu, Function.update_of_ne hk]
  · exact fun k' i hi => hg.serial k' i (hmem k' i hi)
  · exact fun k' i hi => hg.tags k' i (hmem k' i hi)
  · exact fun k' i hi => hg.sums k' i (hmem k' i hi)
  · rw [hser]; exact fun k' i hi => hg.bound k' i (hmem k' i hi)
  · intro k'
    by_cases hk : k' = k
    · subst hk
      rw [Function.update_self]
      exact (hg.nodup _).tail
    · rw [Function.update_of_ne hk]; exact hg.nodup k'
  · exact fun k₁ k₂ i h1 h2 => hg.disjoint _ _ _ (hmem _ _ h1) (hmem _ _ h2)

/-- the mask step when the stores have a triple -/
theorem maskAll_ok (env : Env) (s : Session) (hs : s.Live env) (op : (k : K) → Kw → A k → B k → C k)
    (w : World K A B C) (q : K → List Nat)
    (kwOf : Nat → Kw) (ts : (k : K) → Nat → Nat → Triple (A k) (B k) (C k)) (hg : w.Good op s q kwOf ts) (k : K)
    (x : MPCTensor (A k)) (y : MPCTensor (B k)) (hx : x.WF env) (hy : y.WF env) (hxs : x.session = s) (hys : y.session = s)
    (X : Nat → ShareTensor (A k)) (Y : Nat → ShareTensor (B k)) (hX : x.shares = (List.range s.nrParties).map X)
    (hY : y.shares = (List.range s.nrParties).map Y) (U : Nat → Nat) (hU : s.rankToUuid = (List.range s.nrParties).map U)
    (i : Nat) (rest : List Nat) (hq : q k = i :: rest) :
    ∃ M : Nat → ShareTensor (A k) × ShareTensor (B k) × Nat, maskAll env w k x y = .ok ((List.range s.nrParties).map M) ∧
      ∀ r < s.nrParties, (M r).1.tensor = (X r).tensor - (ts k i r).a.tensor ∧
        (M r).2.1.tensor = (Y r).tensor - (ts k i r).b.tensor ∧ (M r).2.2 = i := by
  have hUr : ∀ r < s.nrParties, s.rankToUuid[r]? = some (U r) := by
    intro r hr; rw [hU]; simp [hr]
  have htX : ∀ r < s.nrParties, (X r).sessionUuid = some (U r) := by
    intro r hr
    have h := hx.tags
    rw [hxs, hX, hU, List.map_map, List.map_map] at h
    have := congrArg (fun l => l[r]?) h
    simpa [hr] using this
  have htY : ∀ r < s.nrParties, (Y r).sessionUuid = some (U r) := by
    intro r hr
    have h := hy.tags
    rw [hys, hY, hU, List.map_map, List.map_map] at h
    have := congrArg (fun l => l[r]?) h
    simpa [hr] using this
  have hP : ∀ r, ∃ p, r < s.nrParties → env (U r) = some p := by
    intro r
    by_cases hr : r < s.nrParties
    · obtain ⟨p, hp, _⟩ := hs.ranked r (U r) (hUr r hr)
      exact ⟨p, fun _ => hp⟩
    · exact ⟨⟨0, 0, 0, {}, 0, .int64, fssProtocol, 0, 0⟩, fun h => absurd h hr⟩
  choose P hP using hP
  refine ⟨fun r => (⟨(X r).tensor - (ts k i r).a.tensor, some (U r), (P r).config, (P r).ringSize⟩,
    ⟨(Y r).tensor - (ts k i r).b.tensor, some (U r), (P r).config, (P r).ringSize⟩, (ts k i r).serial), ?_, ?_⟩
  · unfold maskAll
    have hzip : x.shares.zip y.shares = (List.range s.nrParties).map fun r => (X r, Y r) := by
      rw [hX, hY, List.zip_map']
    rw [hzip, hxs]
    have h2 := hs.two
    have hpar := hs.parties
    rw [if_neg (by simp; omega), if_neg (by simp; omega), List.mapM_map]
    apply mapM_ok
    intro r hr
    have hr := List.mem_range.mp hr
    simp only [Function.comp]
    unfold spdzMask
    simp only [htX r hr, hP r hr, ok_bind]
    rw [Store.get_cons _ k _ (ts k i r) (rest.map fun i => ts k i r) (by rw [hg.stores r _ (hUr r hr), hq]; rfl)]
    obtain ⟨ha, hb⟩ := hg.tags k i (by rw [hq]; simp) r (U r) (hUr r hr)
    simp [ok_bind, ShareTensor.sub, ShareTensor.sanityChecks, ShareTensor.applyFunction, htX r hr, htY r hr, ha, hb,
      hP r hr, pure_eq_ok]
  · intro r hr
    exact ⟨rfl, rfl, hg.serial k i (by rw [hq]; simp) r⟩

/-- the mask step when the stores have no triple -/
theorem maskAll_empty (env : Env) (s : Session) (hs : s.Live env) (op : (k : K) → Kw → A k → B k → C k)
    (w : World K A B C) (q : K → List Nat)
    (kwOf : Nat → Kw) (ts : (k : K) → Nat → Nat → Triple (A k) (B k) (C k)) (hg : w.Good op s q kwOf ts) (k : K)
    (x : MPCTensor (A k)) (y : MPCTensor (B k)) (hx : x.WF env) (hy : y.WF env) (hxs : x.session = s) (hys : y.session = s)
    (hq : q k = []) : maskAll env w k x y = .error .emptyStore := by
  have hlx : x.shares.length = s.nrParties := by
    have := congrArg List.length hx.tags
    simpa [hxs, hs.ranks] using this
  have hly : y.shares.length = s.nrParties := by
    have := congrArg List.length hy.tags
    simpa [hys, hs.ranks] using this
  have h2 := hs.two
  have hpar := hs.parties
  unfold maskAll
  dsimp only
  rw [hxs, if_neg (by simp [List.isEmpty_iff, List.zip_eq_nil_iff]; constructor <;> (intro h; simp [h] at hlx hly; omega)),
    if_neg (by simp; omega)]
  cases hxl : x.shares with
  | nil => simp [hxl] at hlx; omega
  | cons a as =>
    cases hyl : y.shares with
    | nil => simp [hyl] at hly; omega
    | cons b bs =>
      rw [List.zip_cons_cons, List.mapM_cons]
      have htag := hx.tags
      rw [hxl, hxs] at htag
      cases hr : s.rankToUuid with
      | nil => rw [hr] at htag; simp at htag
      | cons u us =>
        rw [hr] at htag
        simp only [List.map_cons, List.cons.injEq] at htag
        obtain ⟨p, hp, _⟩ := hs.ranked 0 u (by rw [hr]; rfl)
        have : spdzMask env w k a b = .error .emptyStore := by
          unfold spdzMask
          simp only [htag.1, hp, ok_bind]
          rw [Store.get_nil _ _ _ (by rw [hg.stores 0 u (by rw [hr]; rfl), hq]; rfl)]
          rfl
        simp only [this]
        rfl

/-- the whole multiplication when the first triple is `i` -/
theorem mul_core (env : Env) (s : Session) (hs : s.Live env) (op : (k : K) → Kw → A k →+ B k →+ C k)
    (trunc : (k : K) → Config → C k → C k) (rnd : (k : K) → Nat → TripleRand (A k) (B k) (C k))
    (w : World K A B C) (q : K → List Nat)
    (kwOf : Nat → Kw) (ts : (k : K) → Nat → Nat → Triple (A k) (B k) (C k))
    (hg : w.Good (fun k kw a b => op k kw a b) s q kwOf ts) (k : K) (kw : Kw)
    (x : MPCTensor (A k)) (y : MPCTensor (B k)) (hx : x.WF env) (hy : y.WF env) (hxs : x.session = s) (hys : y.session = s)
    (i : Nat) (rest : List Nat) (hq : q k = i :: rest) (w0 : World K A B C)
    (hmask : ∀ m, maskAll env w k x y = .ok m →
      maskOrGenerate env (fun k kw a b => op k kw a b) rnd k kw w0 x y = .ok (m, w)) :
    ∃ out w' zs, mulMaster env (fun k kw a b => op k kw a b) trunc rnd k kw w0 x y = .ok (out, w') ∧
      w'.serial = w.serial ∧ w'.Good (fun k kw a b => op k kw a b) s (Function.update q k rest) kwOf ts ∧
      out.maskIds = List.replicate s.nrParties i ∧ out.mulIds = List.replicate s.nrParties i ∧
      out.eps = x.value - ∑ r ∈ Finset.range s.nrParties, (ts k i r).a.tensor ∧
      out.delta = y.value - ∑ r ∈ Finset.range s.nrParties, (ts k i r).b.tensor ∧
      out.result.session = s ∧ out.result.shares.map (·.sessionUuid) = s.rankToUuid.map some ∧
      out.result.shares.map (·.tensor) = (if s.nrParties = 2 then zs.map (trunc k s.config) else zs) ∧
      zs.length = s.nrParties ∧
      zs.sum = op k kw x.value y.value
        + (op k (kwOf i) (∑ r ∈ Finset.range s.nrParties, (ts k i r).a.tensor) (∑ r ∈ Finset.range s.nrParties, (ts k i r).b.tensor)
        - op k kw (∑ r ∈ Finset.range s.nrParties, (ts k i r).a.tensor) (∑ r ∈ Finset.range s.nrParties, (ts k i r).b.tensor)) ∧
      zs = (List.range s.nrParties).map fun r => mulShare (fun a b => op k kw a b) out.eps out.delta (ts k i r) r := by
  have h2 := hs.two
  have hlx : x.shares.length = s.nrParties := by
    have := congrArg List.length hx.tags
    simpa [hxs, hs.ranks] using this
  have hly : y.shares.length = s.nrParties := by
    have := congrArg List.length hy.tags
    simpa [hys, hs.ranks] using this
  let X : Nat → ShareTensor (A k) := fun r => x.shares.getD r ⟨0, none, {}, 0⟩
  let Y : Nat → ShareTensor (B k) := fun r => y.shares.getD r ⟨0, none, {}, 0⟩
  let U : Nat → Nat := fun r => s.rankToUuid.getD r 0
  have hX : x.shares = (List.range s.nrParties).map X := list_eq_map_range _ _ _ hlx
  have hY : y.shares = (List.range s.nrParties).map Y := list_eq_map_range _ _ _ hly
  have hU : s.rankToUuid = (List.range s.nrParties).map U := list_eq_map_range 0 _ _ hs.ranks
  have hUr : ∀ r < s.nrParties, s.rankToUuid[r]? = some (U r) := by
    intro r hr
    have := congrArg (fun l : List Nat => l[r]?) hU
    simpa [hr] using this
  obtain ⟨M, hM, hM'⟩ := maskAll_ok env s hs _ w q kwOf ts hg k x y hx hy hxs hys X Y hX hY U hU i rest hq
  have hm := hmask _ hM
  have hxv : x.value = ∑ r ∈ Finset.range s.nrParties, (X r).tensor := by
    unfold MPCTensor.value
    rw [hX, List.map_map]
    rfl
  have hyv : y.value = ∑ r ∈ Finset.range s.nrParties, (Y r).tensor := by
    unfold MPCTensor.value
    rw [hY, List.map_map]
    rfl
  have hlocal : (List.range s.nrParties).mapM (pyGet ((List.range s.nrParties).map M))
      = .ok ((List.range s.nrParties).map M) := by
    apply mapM_ok
    intro r hr
    have hr := List.mem_range.mp hr
    rw [pyGet_ok (by simpa using hr)]
    simp
  have heps : ShareTensor.reconstruct (((List.range s.nrParties).map M).map (·.1))
      = .ok (x.value - ∑ r ∈ Finset.range s.nrParties, (ts k i r).a.tensor) := by
    rw [reconstruct_eq_sum _ (by simp; omega), hxv, ← Finset.sum_sub_distrib, ← sum_range_list]
    congr 2
    rw [List.map_map, List.map_map]
    apply List.map_congr_left
    intro r hr
    exact (hM' r (List.mem_range.mp hr)).1
  have hdel : ShareTensor.reconstruct (((List.range s.nrParties).map M).map (·.2.1))
      = .ok (y.value - ∑ r ∈ Finset.range s.nrParties, (ts k i r).b.tensor) := by
    rw [reconstruct_eq_sum _ (by simp; omega), hyv, ← Finset.sum_sub_distrib, ← sum_range_list]
    congr 2
    rw [List.map_map, List.map_map]
    apply List.map_congr_left
    intro r hr
    exact (hM' r (List.mem_range.mp hr)).2.1
  generalize hε : x.value - ∑ r ∈ Finset.range s.nrParties, (ts k i r).a.tensor = eps at heps
  generalize hδ : y.value - ∑ r ∈ Finset.range s.nrParties, (ts k i r).b.tensor = delta at hdel
  have hP : ∀ r, ∃ p : PartySession, r < s.nrParties →
      env (U r) = some p ∧ p.rank = r ∧ p.nrParties = s.nrParties ∧ p.config = s.config := by
    intro r
    by_cases hr : r < s.nrParties
    · obtain ⟨p, hp, hp1, hp2⟩ := hs.ranked r (U r) (hUr r hr)
      obtain ⟨p', hp', hc, _⟩ := hs.known (U r) (List.mem_of_getElem? (hUr r hr))
      rw [hp] at hp'
      cases hp'
      exact ⟨p, fun _ => ⟨hp, hp1, hp2, hc⟩⟩
    · exact ⟨⟨0, 0, 0, {}, 0, .int64, fssProtocol, 0, 0⟩, fun h => absurd h hr⟩
  choose P hP using hP
  obtain ⟨w', hmul, hser', hst'⟩ := mulAll_ok env k (fun a b => op k kw a b) (trunc k) eps delta U P (ts k i) s.nrParties
    (List.range s.nrParties) (by rw [← hU]; exact hs.distinct)
    (fun r hr => ⟨(hP r (List.mem_range.mp hr)).1, (hP r (List.mem_range.mp hr)).2.1, (hP r (List.mem_range.mp hr)).2.2.1⟩) w
    (fun r hr => ⟨rest.map fun i => ts k i r, by
      rw [hg.stores r _ (hUr r (List.mem_range.mp hr)), hq]; rfl⟩)
  rw [← hU] at hmul hst'
  have hgood := pop_good _ s w w' q kwOf ts hg k hser' (by
    intro r u hu
    rw [hst' u, if_pos (List.mem_of_getElem? hu)])
  rw [hq, List.tail_cons] at hgood
  refine ⟨⟨⟨s, (List.range s.nrParties).map fun r => ⟨if s.nrParties = 2 then
      trunc k (P r).config (mulShare (fun a b => op k kw a b) eps delta (ts k i r) r)
      else mulShare (fun a b => op k kw a b) eps delta (ts k i r) r, some (U r), (P r).config, 2 ^ 64⟩⟩, eps, delta,
      List.replicate s.nrParties i, List.replicate s.nrParties i⟩, w',
    (List.range s.nrParties).map fun r => mulShare (fun a b => op k kw a b) eps delta (ts k i r) r,
    ?_, hser', hgood, rfl, rfl, rfl, rfl, rfl, ?_, ?_, by simp, ?_, rfl⟩
  · unfold mulMaster
    rw [hm]
    simp only [ok_bind, hxs, hlocal, heps, hdel, hmul]
    rw [ofShares_ok s _ hs.ptrs (by simp; omega), ok_bind, pure_eq_ok]
    congr 3
    · rw [List.map_map]; rfl
    · rw [List.map_map, List.eq_replicate_iff]
      refine ⟨by simp, ?_⟩
      intro b hb
      obtain ⟨r, hr, rfl⟩ := List.mem_map.mp hb
      exact (hM' r (List.mem_range.mp hr)).2.2
    · rw [List.map_map, List.eq_replicate_iff]
      refine ⟨by simp, ?_⟩
      intro b hb
      obtain ⟨r, _, rfl⟩ := List.mem_map.mp hb
      exact hg.serial k i (by rw [hq]; simp) r
  · rw [hU]
    simp only [List.map_map]
    rfl
  · simp only [List.map_map]
    split
    · apply List.map_congr_left
      intro r hr
      simp [hP r (List.mem_range.mp hr), *]
    · apply List.map_congr_left
      intro r hr
      simp [*]
  · rw [sum_range_list, sum_mulShare _ _ _ _ _ (by omega), hg.sums k i (by rw [hq]; simp), ← hε, ← hδ]
    simp only [map_sub, AddMonoidHom.sub_apply]
    abel

end SyMPC
