import Verif.Lemmas.Fss
import Verif.Props.Wraps

/-!
# C38, C59: comparison by function secret sharing
-/

namespace SyMPC

variable {Key : Type} {n : Nat}

/-! ## Histories -/

/-- the operation of a call -/
def FssCmd.op : FssCmd Key → FssOp
  | .provide op _ => op
  | .compare _ op _ _ _ => op

theorem FssCmd.op_provide (op : FssOp) (keys : List (Key × Key)) : (FssCmd.provide op keys).op = op := rfl

theorem FssCmd.op_compare (op : FssOp) (keys : List (Key × Key)) (x y : MPCTensor (Fin n → I64)) :
    (FssCmd.compare n op keys x y).op = op := rfl

theorem FssCmd.keys_provide (op : FssOp) (keys : List (Key × Key)) : (FssCmd.provide op keys).keys = keys := rfl

theorem FssCmd.keys_compare (op : FssOp) (keys : List (Key × Key)) (x y : MPCTensor (Fin n → I64)) :
    (FssCmd.compare n op keys x y).keys = keys := rfl

/-- the call is a comparison -/
def FssCmd.IsCompare : FssCmd Key → Prop
  | .provide _ _ => False
  | .compare _ _ _ _ _ => True

/-- A comparison used the first `n` pairs of keys of the batch `b` in both steps. -/
theorem FssDone.used {S : Sycret Key} {op : FssOp} {x y : MPCTensor (Fin n → I64)} {b : List (Key × Key)} {out : FssOut Key n}
    (h : FssDone S op x y b out) (keys : List (Key × Key)) :
    FssEvent.used ⟨n, op, keys, x, y, .ok out⟩ = b.take n := by
  simp only [FssEvent.used, h.maskKeys, List.zip_map', Prod.mk.eta, List.map_id']

theorem push_flatten {α : Type} (b : List (List α)) (keys : List α) :
    (FssStore.push b keys).flatten.Sublist (b.flatten ++ keys) := by
  match b with
  | [] => simp [FssStore.push]
  | [] :: r => simp [FssStore.push]
  | (a :: l) :: rest => simp [FssStore.push]

/-- a history from stores that hold `B` -/
theorem history_uses (S : Sycret Key) {env : Env} {s : Session} (hs : s.Pair env) (o : FssOp) (cmds : List (FssCmd Key)) :
    ∀ (B : FssOp → List (List (Key × Key))) (w : FssWorld Key), w.Holds s B → (∀ c ∈ cmds, c.Ok env s) →
    (((runFss S env s cmds w).1.filter (·.op = o)).flatMap (·.used)).Sublist
        ((B o).flatten ++ (cmds.filter (·.op = o)).flatMap (·.keys)) ∧
      ∀ e ∈ (runFss S env s cmds w).1, FssCmd.compare e.n e.op e.keys e.x e.y ∈ cmds ∧
        ((∃ out b, e.out = .ok out ∧ out.result.WF env ∧ FssDone S e.op e.x e.y b out ∧
          (∀ k ∈ b, k ∈ (B e.op).flatten ∨ ∃ c ∈ cmds, c.op = e.op ∧ k ∈ c.keys)) ∨ e.out = .error .valueError) := by
  induction cmds with
  | nil => intro B w _ _; exact ⟨by simp [runFss], by simp [runFss]⟩
  | cons c cs ih =>
    intro B w hw hok
    have hok' : ∀ c ∈ cs, c.Ok env s := fun c hc => hok c (by simp [hc])
    cases c with
    | provide op keys =>
      obtain ⟨w', hg, hw'⟩ := fssGenerate_holds hs op keys w B hw
      obtain ⟨h1, h2⟩ := ih _ w' hw' hok'
      have hrun : runFss S env s (.provide op keys :: cs) w = runFss S env s cs w' := by simp only [runFss, hg]
      rw [hrun]
      refine ⟨?_, ?_⟩
      · refine h1.trans ?_
        by_cases ho : op = o
        · subst ho
          simp only [if_true, List.filter_cons, FssCmd.op_provide, decide_true, List.flatMap_cons, FssCmd.keys_provide]
          rw [← List.append_assoc]
          exact (push_flatten _ _).append_right _
        · simp [FssCmd.op_provide, ho, Ne.symm ho]
      · intro e he
        obtain ⟨g1, g2⟩ := h2 e he
        refine ⟨List.mem_cons_of_mem _ g1, ?_⟩
        rcases g2 with ⟨out, b, e1, e2, e3, e4⟩ | g2
        · refine Or.inl ⟨out, b, e1, e2, e3, ?_⟩
          intro k hk
          rcases e4 k hk with h | ⟨c, hc, h⟩
          · by_cases ho : e.op = op
            · rw [if_pos ho] at h
              have := (push_flatten _ _).subset h
              rw [List.mem_append] at this
              rcases this with h | h
              · exact Or.inl (ho ▸ h)
              · exact Or.inr ⟨_, List.mem_cons_self, ho.symm, h⟩
            · rw [if_neg ho] at h
              exact Or.inl h
          · exact Or.inr ⟨c, by simp [hc], h⟩
        · exact Or.inr g2
    | compare n op keys x y =>
      obtain ⟨hl, hxs, hys, hx, hy⟩ := hok (.compare n op keys x y) (by simp)
      obtain ⟨b, rest, hb⟩ := List.exists_cons_of_ne_nil (FssStore.push_ne_nil (B op) keys)
      have hspec := fssOp_spec S op keys x y (hxs ▸ hs) (by rw [hxs, hys]) hx hy w B (hxs ▸ hw) b rest hb
      rw [hxs] at hspec
      have hflat : (b ++ rest.flatten).Sublist ((B op).flatten ++ keys) := by
        have := push_flatten (B op) keys
        rwa [hb, List.flatten_cons] at this
      have hmem : ∀ k ∈ b ++ rest.flatten, k ∈ (B op).flatten ∨ k ∈ keys := fun k hk =>
        List.mem_append.mp (hflat.subset hk)
      by_cases hn : n ≤ b.length
      · obtain ⟨out, w', h1, h2, h3, h4⟩ := hspec.1 hn
        obtain ⟨i1, i2⟩ := ih _ w' h4 hok'
        have hrun : runFss S env s (.compare n op keys x y :: cs) w
            = (⟨n, op, keys, x, y, .ok out⟩ :: (runFss S env s cs w').1, (runFss S env s cs w').2) := by
          simp only [runFss, h1]
        rw [hrun]
        refine ⟨?_, ?_⟩
        · by_cases ho : op = o
          · subst ho
            simp only [List.filter_cons, FssCmd.op_compare, decide_true, if_true, List.flatMap_cons, FssCmd.keys_compare, h3.used keys]
            rw [← List.append_assoc]
            refine List.Sublist.trans ?_ (hflat.append_right _)
            rw [List.append_assoc]
            refine (List.take_sublist n b).append ?_
            simpa using i1
          · simpa [List.filter_cons, FssCmd.op_provide, FssCmd.op_compare, ho, Ne.symm ho] using i1
        · intro e he
          rcases List.mem_cons.mp he with rfl | he
          · refine ⟨by simp, Or.inl ⟨out, b, rfl, h2, h3, ?_⟩⟩
            intro k hk
            rcases hmem k (by simp [hk]) with h | h
            · exact Or.inl h
            · exact Or.inr ⟨_, List.mem_cons_self, rfl, h⟩
          · obtain ⟨g1, g2⟩ := i2 e he
            refine ⟨List.mem_cons_of_mem _ g1, ?_⟩
            rcases g2 with ⟨out, b', e1, e2, e3, e4⟩ | g2
            · refine Or.inl ⟨out, b', e1, e2, e3, ?_⟩
              intro k hk
              rcases e4 k hk with h | ⟨c, hc, h⟩
              · by_cases ho : e.op = op
                · rw [if_pos ho] at h
                  rcases hmem k (by simp only [List.mem_append]; exact Or.inr h) with h | h
                  · exact Or.inl (ho ▸ h)
                  · exact Or.inr ⟨_, List.mem_cons_self, ho.symm, h⟩
                · rw [if_neg ho] at h
                  exact Or.inl h
              · exact Or.inr ⟨c, by simp [hc], h⟩
            · exact Or.inr g2
      · obtain ⟨w', h1, h4⟩ := hspec.2 (by omega)
        obtain ⟨i1, i2⟩ := ih _ w' h4 hok'
        have hrun : runFss S env s (.compare n op keys x y :: cs) w
            = (⟨n, op, keys, x, y, .error .valueError⟩ :: (runFss S env s cs w').1, (runFss S env s cs w').2) := by
          simp only [runFss, h1]
        rw [hrun]
        refine ⟨?_, ?_⟩
        · by_cases ho : op = o
          · subst ho
            simp only [List.filter_cons, FssCmd.op_compare, decide_true, if_true, List.flatMap_cons, FssCmd.keys_compare]
            rw [← List.append_assoc]
            refine List.Sublist.trans ?_ (hflat.append_right _)
            simpa [FssEvent.used] using i1
          · simpa [List.filter_cons, FssCmd.op_provide, FssCmd.op_compare, ho, Ne.symm ho] using i1
        · intro e he
          rcases List.mem_cons.mp he with rfl | he
          · exact ⟨by simp, Or.inr rfl⟩
          · obtain ⟨g1, g2⟩ := i2 e he
            refine ⟨List.mem_cons_of_mem _ g1, ?_⟩
            rcases g2 with ⟨out, b', e1, e2, e3, e4⟩ | g2
            · refine Or.inl ⟨out, b', e1, e2, e3, ?_⟩
              intro k hk
              rcases e4 k hk with h | ⟨c, hc, h⟩
              · by_cases ho : e.op = op
                · rw [if_pos ho] at h
                  rcases hmem k (by simpa using h) with h | h
                  · exact Or.inl (ho ▸ h)
                  · exact Or.inr ⟨_, List.mem_cons_self, ho.symm, h⟩
                · rw [if_neg ho] at h
                  exact Or.inl h
              · exact Or.inr ⟨c, by simp [hc], h⟩
            · exact Or.inr g2

/-! ## C59 -/

/-- C59: over any history of provisioning and comparisons in a two-party session, the keys used by the comparisons of one
kind are taken from the keys generated for that kind in the order of generation, none of them twice (a sublist has no
element more often than the whole list). -/
theorem C59_once (S : Sycret Key) {env : Env} {s : Session} (hs : s.Pair env) (o : FssOp) (cmds : List (FssCmd Key))
    (hok : ∀ c ∈ cmds, c.Ok env s) :
    (((runFss S env s cmds .empty).1.filter (·.op = o)).flatMap (·.used)).Sublist
      ((cmds.filter (·.op = o)).flatMap (·.keys)) := by
  simpa using (history_uses S hs o cmds _ _ (holds_empty s) hok).1

/-- C59: so if key generation never repeats a pair, no two comparisons share one. -/
theorem C59_no_reuse (S : Sycret Key) {env : Env} {s : Session} (hs : s.Pair env) (o : FssOp) (cmds : List (FssCmd Key))
    (hok : ∀ c ∈ cmds, c.Ok env s) (hfresh : ((cmds.filter (·.op = o)).flatMap (·.keys)).Nodup) :
    (((runFss S env s cmds .empty).1.filter (·.op = o)).flatMap (·.used)).Nodup :=
  (C59_once S hs o cmds hok).nodup hfresh

/-- C59: every comparison that succeeds takes exactly one pair of keys per element; masking and evaluation use the same
keys, and the two parties use the two halves of the same pairs. -/
theorem C59_matching (S : Sycret Key) {env : Env} {s : Session} (hs : s.Pair env) (cmds : List (FssCmd Key))
    (hok : ∀ c ∈ cmds, c.Ok env s) (e : FssEvent Key) (he : e ∈ (runFss S env s cmds .empty).1) (out : FssOut Key e.n)
    (hout : e.out = .ok out) :
    e.used.length = e.n ∧ out.maskKeys = [e.used.map (·.1), e.used.map (·.2)] ∧ out.evalKeys = out.maskKeys ∧
      ∀ k ∈ e.used, ∃ c ∈ cmds, c.op = e.op ∧ k ∈ c.keys := by
  obtain ⟨_, h⟩ := (history_uses S hs .eq cmds _ _ (holds_empty s) hok).2 e he
  rcases h with ⟨out', b, e1, e2, e3, e4⟩ | h
  · rw [hout] at e1
    cases e1
    have hu : e.used = b.take e.n := by
      have := e3.used e.keys
      rw [← hout] at this
      exact this
    rw [hu]
    refine ⟨by simpa using e3.enough, e3.maskKeys, by rw [e3.evalKeys, e3.maskKeys], ?_⟩
    intro k hk
    rcases e4 k (List.mem_of_mem_take hk) with h | h
    · simp at h
    · exact h
  · rw [hout] at h
    cases h

/-- nothing is left over in a stack -/
def Clean {α : Type} (b : List (List α)) : Prop := b.flatten = [] ∧ b.length ≤ 1

theorem Clean.push {α : Type} {b : List (List α)} (h : Clean b) (keys : List α) : FssStore.push b keys = [keys] := by
  match b, h with
  | [], _ => rfl
  | [] :: _, _ => rfl
  | (a :: l) :: rest, h => simp [Clean] at h

/-- a history of comparisons only, from clean stores -/
theorem history_on_the_fly (S : Sycret Key) {env : Env} {s : Session} (hs : s.Pair env) (cmds : List (FssCmd Key)) :
    ∀ (B : FssOp → List (List (Key × Key))) (w : FssWorld Key), w.Holds s B → (∀ o, Clean (B o)) →
    (∀ c ∈ cmds, c.Ok env s ∧ c.IsCompare) →
    (runFss S env s cmds w).1.length = cmds.length ∧
      ∀ e ∈ (runFss S env s cmds w).1, FssCmd.compare e.n e.op e.keys e.x e.y ∈ cmds ∧
        ∃ out, e.out = .ok out ∧ out.result.WF env ∧ FssDone S e.op e.x e.y e.keys out := by
  induction cmds with
  | nil => intro B w _ _ _; exact ⟨by simp [runFss], by simp [runFss]⟩
  | cons c cs ih =>
    intro B w hw hB hok
    have hok' : ∀ c ∈ cs, c.Ok env s ∧ c.IsCompare := fun c hc => hok c (by simp [hc])
    cases c with
    | provide op keys => exact absurd (hok (.provide op keys) (by simp)).2 id
    | compare n op keys x y =>
      obtain ⟨hl, hxs, hys, hx, hy⟩ := (hok (.compare n op keys x y) (by simp)).1
      obtain ⟨out, w', h1, h2, h3, h4⟩ := (fssOp_spec S op keys x y (hxs ▸ hs) (by rw [hxs, hys]) hx hy w B (hxs ▸ hw) keys []
        ((hB op).push keys)).1 (by omega)
      rw [hxs] at h4
      obtain ⟨i1, i2⟩ := ih _ w' h4 (by intro o; split; exact ⟨rfl, by simp⟩; exact hB o) hok'
      have hrun : runFss S env s (.compare n op keys x y :: cs) w
          = (⟨n, op, keys, x, y, .ok out⟩ :: (runFss S env s cs w').1, (runFss S env s cs w').2) := by
        simp only [runFss, h1]
      rw [hrun]
      refine ⟨by simp [i1], ?_⟩
      intro e he
      rcases List.mem_cons.mp he with rfl | he
      · exact ⟨by simp, out, rfl, h2, h3⟩
      · obtain ⟨g1, g2⟩ := i2 e he
        exact ⟨List.mem_cons_of_mem _ g1, g2⟩

/-- C59: in a history of comparisons only (no provisioning ahead), every comparison succeeds and uses all the keys
generated for it. -/
theorem C59_on_the_fly (S : Sycret Key) {env : Env} {s : Session} (hs : s.Pair env) (cmds : List (FssCmd Key))
    (hok : ∀ c ∈ cmds, c.Ok env s ∧ c.IsCompare) :
    (runFss S env s cmds .empty).1.length = cmds.length ∧
    ∀ e ∈ (runFss S env s cmds .empty).1, ∃ out, e.out = .ok out ∧ e.used = e.keys := by
  obtain ⟨h1, h2⟩ := history_on_the_fly S hs cmds _ _ (holds_empty s) (fun _ => ⟨rfl, by simp⟩) hok
  refine ⟨h1, ?_⟩
  intro e he
  obtain ⟨g1, out, g2, _, g3⟩ := h2 e he
  refine ⟨out, g2, ?_⟩
  have hu : e.used = e.keys.take e.n := by
    have := g3.used e.keys
    rw [← g2] at this
    exact this
  obtain ⟨hl, _⟩ := (hok _ g1).1
  rw [hu, ← hl, List.take_length]

/-- C59, the code disagrees ("every comparison takes the keys it needs"): once a batch that is too small lies in the stores,
each later comparison of more elements fails, however often it is tried, although each generates the keys it needs. -/
theorem C59_shortage (S : Sycret Key) {env : Env} {s : Session} (hs : s.Pair env) (op : FssOp) (pre : List (Key × Key))
    (hpre : pre ≠ []) (cmds : List (FssCmd Key)) (hok : ∀ c ∈ cmds, c.Ok env s)
    (hbig : ∀ c ∈ cmds, ∃ n keys x y, c = .compare n op keys x y ∧ pre.length < n) :
    ∀ e ∈ (runFss S env s (.provide op pre :: cmds) .empty).1, e.out = .error .valueError := by
  have key : ∀ (cmds : List (FssCmd Key)) (B : FssOp → List (List (Key × Key))) (w : FssWorld Key), w.Holds s B →
      (∃ rest, B op = pre :: rest) → (∀ c ∈ cmds, c.Ok env s) →
      (∀ c ∈ cmds, ∃ n keys x y, c = .compare n op keys x y ∧ pre.length < n) →
      ∀ e ∈ (runFss S env s cmds w).1, e.out = .error .valueError := by
    intro cmds
    induction cmds with
    | nil => intro B w _ _ _ _ e he; simp [runFss] at he
    | cons c cs ih =>
      intro B w hw ⟨rest, hB⟩ hok hbig
      obtain ⟨n, keys, x, y, rfl, hn⟩ := hbig c (by simp)
      obtain ⟨hl, hxs, hys, hx, hy⟩ := hok (.compare n op keys x y) (by simp)
      have hpush : FssStore.push (B op) keys = pre :: (rest ++ [keys]) := by
        rw [hB]
        cases pre with
        | nil => exact absurd rfl hpre
        | cons a l => rfl
      obtain ⟨w', h1, h4⟩ := (fssOp_spec S op keys x y (hxs ▸ hs) (by rw [hxs, hys]) hx hy w B (hxs ▸ hw) _ _ hpush).2 hn
      rw [hxs] at h4
      have hrun : runFss S env s (.compare n op keys x y :: cs) w
          = (⟨n, op, keys, x, y, .error .valueError⟩ :: (runFss S env s cs w').1, (runFss S env s cs w').2) := by
        simp only [runFss, h1]
      rw [hrun]
      intro e he
      rcases List.mem_cons.mp he with rfl | he
      · rfl
      · exact ih _ w' h4 ⟨rest ++ [keys], by simp⟩ (fun c hc => hok c (by simp [hc])) (fun c hc => hbig c (by simp [hc])) e he
  obtain ⟨w', hg, hw'⟩ := fssGenerate_holds hs op pre .empty _ (holds_empty s)
  have hrun : runFss S env s (.provide op pre :: cmds) .empty = runFss S env s cmds w' := by simp only [runFss, hg]
  rw [hrun]
  exact key cmds _ w' hw' ⟨[], by simp [FssStore.push]⟩ hok hbig

/-! ## C38 -/

/-- C38: with a number of parties other than two, every comparison raises `ValueError` and changes no store. -/
theorem C38_only_two_parties (S : Sycret Key) (env : Env) (op : FssOp) (keys : List (Key × Key)) (x y : MPCTensor (Fin n → I64))
    (w : FssWorld Key) (h : x.session.sessionPtrs.length ≠ 2) : fssOp S env op keys x y w = (.error .valueError, w) := by
  have : fssGenerate x.session op keys w = .error .valueError := by
    unfold fssGenerate
    simp only [List.length_cons, List.length_nil]
    rw [if_pos (by omega)]
  simp only [fssOp, this]

/-- The difference of two secrets, read as 32 bit number, is zero exactly if they differ by a multiple of `2^32` quanta. -/
theorem low32_zero (a b : I64) : (a - b).setWidth 32 = 0 ↔ a.toInt ≡ b.toInt [ZMOD 2 ^ 32] := by
  rw [← BitVec.toNat_inj]
  simp only [BitVec.toNat_setWidth, BitVec.toNat_sub, Int.ModEq, BitVec.toInt_eq_toNat_cond]
  have := a.isLt
  have := b.isLt
  have h0 : (0 : BitVec 32).toNat = 0 := rfl
  rw [h0]
  constructor
  · intro h
    split <;> split <;> omega
  · intro h
    split at h <;> split at h <;> omega

/-- C38, equality: in every history of comparisons, each result of `==` is the encoding of 1 if the two secrets are equal
modulo `2^32` quanta, and of 0 otherwise, as long as no output of the library is `-2^31`. -/
theorem C38_eq_partial (S : Sycret Key) {env : Env} {s : Session} (hs : s.Pair env) (cmds : List (FssCmd Key))
    (hok : ∀ c ∈ cmds, c.Ok env s ∧ c.IsCompare) (hkeys : ∀ c ∈ cmds, ∀ k ∈ c.keys, KeysCorrect S (· = ·) .eq k)
    (e : FssEvent Key) (he : e ∈ (runFss S env s cmds .empty).1) (hop : e.op = .eq) :
    ∃ out, e.out = .ok out ∧ out.result.WF env ∧ out.result.session = e.x.session ∧ out.result.reconstruct = .ok out.result.value ∧
      ∀ (i : Fin e.n) (k : Key × Key), e.keys[i.val]? = some k → NoMinOutput S .eq (out.opened i) k →
        out.result.value i = s.config.encoder.encode (.long
          (if (e.x.value i).toInt ≡ (e.y.value i).toInt [ZMOD 2 ^ 32] then 1 else 0)) := by
  obtain ⟨g1, out, g2, g3, g4⟩ := (history_on_the_fly S hs cmds _ _ (holds_empty s) (fun _ => ⟨rfl, by simp⟩) hok).2 e he
  refine ⟨out, g2, g3, g4.session, WF.reconstruct g3, ?_⟩
  intro i k hk hm
  obtain ⟨_, hxs, _⟩ := (hok _ g1).1
  have hmem : k ∈ e.keys := List.mem_of_getElem? hk
  rw [hop] at g4
  rw [g4.bit (· = ·) i k hk (hkeys _ g1 k hmem) hm, hxs]
  congr 3
  rw [← low32_zero]
  exact propext ⟨fun h => by simpa using h, fun h => by simp [h]⟩

/-- C38, equality of secrets less than `2^32` quanta apart. -/
theorem C38_eq_near_partial (S : Sycret Key) {env : Env} {s : Session} (hs : s.Pair env) (cmds : List (FssCmd Key))
    (hok : ∀ c ∈ cmds, c.Ok env s ∧ c.IsCompare) (hkeys : ∀ c ∈ cmds, ∀ k ∈ c.keys, KeysCorrect S (· = ·) .eq k)
    (e : FssEvent Key) (he : e ∈ (runFss S env s cmds .empty).1) (hop : e.op = .eq) :
    ∃ out, e.out = .ok out ∧ out.result.reconstruct = .ok out.result.value ∧
      ∀ (i : Fin e.n) (k : Key × Key), e.keys[i.val]? = some k → NoMinOutput S .eq (out.opened i) k →
        |(e.x.value i).toInt - (e.y.value i).toInt| < 2 ^ 32 →
        out.result.value i = s.config.encoder.encode (.long (if e.x.value i = e.y.value i then 1 else 0)) := by
  obtain ⟨out, h1, _, _, h2, h3⟩ := C38_eq_partial S hs cmds hok hkeys e he hop
  refine ⟨out, h1, h2, ?_⟩
  intro i k hk hm hd
  rw [h3 i k hk hm]
  congr 3
  rw [← BitVec.toInt_inj]
  apply propext
  constructor
  · intro h
    obtain ⟨q, hq⟩ := h.dvd
    rw [abs_lt] at hd
    omega
  · intro h
    rw [h]

/-- C38, the code disagrees: two secrets that differ by a non-zero multiple of `2^32` quanta (with the default precision, of
65536) are reported equal. -/
theorem C38_eq_far_wrong (S : Sycret Key) {env : Env} {s : Session} (hs : s.Pair env) (cmds : List (FssCmd Key))
    (hok : ∀ c ∈ cmds, c.Ok env s ∧ c.IsCompare) (hkeys : ∀ c ∈ cmds, ∀ k ∈ c.keys, KeysCorrect S (· = ·) .eq k)
    (e : FssEvent Key) (he : e ∈ (runFss S env s cmds .empty).1) (hop : e.op = .eq) (i : Fin e.n) (k : Key × Key)
    (hk : e.keys[i.val]? = some k) (q : Int) (hd : (e.x.value i).toInt = (e.y.value i).toInt + 2 ^ 32 * q) :
    ∃ out, e.out = .ok out ∧ (NoMinOutput S .eq (out.opened i) k →
      out.result.value i = s.config.encoder.encode (.long 1)) := by
  obtain ⟨out, h1, _, _, _, h3⟩ := C38_eq_partial S hs cmds hok hkeys e he hop
  refine ⟨out, h1, fun hm => ?_⟩
  rw [h3 i k hk hm, if_pos]
  rw [hd]
  exact (Int.modEq_iff_dvd.mpr ⟨-q, by ring⟩)

/-- the low 32 bits of a difference, as unsigned number -/
theorem low32_toNat (a b : I64) : (((a - b).setWidth 32).toNat : Int) = (a.toInt - b.toInt) % 2 ^ 32 := by
  have ha : a.toInt ≡ a.toNat [ZMOD 2 ^ 64] := by
    rw [BitVec.toInt_eq_toNat_bmod]; exact Int.bmod_emod
  have hb : b.toInt ≡ b.toNat [ZMOD 2 ^ 64] := by
    rw [BitVec.toInt_eq_toNat_bmod]; exact Int.bmod_emod
  have hab : ((a - b).toNat : Int) ≡ a.toNat - b.toNat [ZMOD 2 ^ 64] := by
    rw [BitVec.toNat_sub]
    have := b.isLt
    unfold Int.ModEq
    omega
  have e : ((a - b).toNat : Int) ≡ a.toInt - b.toInt [ZMOD 2 ^ 32] :=
    (hab.trans (ha.sub hb).symm).of_dvd ⟨2 ^ 32, by norm_num⟩
  rw [BitVec.toNat_setWidth]
  exact_mod_cast e

/-- The signed reading of `sycret`'s comparison: the masked value minus the mask, as a signed 32 bit number, is at most 0. -/
def SignedLe (m α : BitVec 32) : Prop := (m - α).toInt ≤ 0

instance : DecidableRel SignedLe := fun m α => inferInstanceAs (Decidable ((m - α).toInt ≤ 0))

/-- The unsigned reading of `sycret`'s comparison: the masked value is at most the mask, both as unsigned numbers. -/
def UnsignedLe (m α : BitVec 32) : Prop := m.toNat ≤ α.toNat

instance : DecidableRel UnsignedLe := fun m α => inferInstanceAs (Decidable (m.toNat ≤ α.toNat))

theorem signedLe_iff (a b : I64) (α : BitVec 32) (h1 : -2 ^ 31 ≤ a.toInt - b.toInt) (h2 : a.toInt - b.toInt < 2 ^ 31) :
    SignedLe ((a - b).setWidth 32 + α) α ↔ a.toInt ≤ b.toInt := by
  unfold SignedLe
  have e : (a - b).setWidth 32 + α - α = (a - b).setWidth 32 := by abel
  rw [e]
  have := low32_toNat a b
  rw [BitVec.toInt_eq_toNat_cond]
  split <;> omega

theorem unsignedLe_iff (a b : I64) (α : BitVec 32) (h1 : -2 ^ 32 < a.toInt - b.toInt) (h2 : a.toInt - b.toInt < 2 ^ 32) :
    (UnsignedLe ((a - b).setWidth 32 + α) α ↔ a.toInt ≤ b.toInt) ↔
      (a.toInt = b.toInt ∨ (0 ≤ α.toNat + (a.toInt - b.toInt) ∧ α.toNat + (a.toInt - b.toInt) < 2 ^ 32)) := by
  unfold UnsignedLe
  have := low32_toNat a b
  rw [BitVec.toNat_add]
  have := α.isLt
  have := ((a - b).setWidth 32).isLt
  omega

/-- C38, comparison: in every history of comparisons, each result of `<=` is the encoding of a bit determined by the
difference of the secrets modulo `2^32` and the mask `α`. -/
theorem C38_le_partial (S : Sycret Key) {env : Env} {s : Session} (hs : s.Pair env) (cmp : BitVec 32 → BitVec 32 → Prop)
    [DecidableRel cmp] (cmds : List (FssCmd Key))
    (hok : ∀ c ∈ cmds, c.Ok env s ∧ c.IsCompare) (hkeys : ∀ c ∈ cmds, ∀ k ∈ c.keys, KeysCorrect S cmp .comp k)
    (e : FssEvent Key) (he : e ∈ (runFss S env s cmds .empty).1) (hop : e.op = .comp) :
    ∃ out, e.out = .ok out ∧ out.result.WF env ∧ out.result.session = e.x.session ∧ out.result.reconstruct = .ok out.result.value ∧
      ∀ (i : Fin e.n) (k : Key × Key), e.keys[i.val]? = some k → NoMinOutput S .comp (out.opened i) k →
        out.result.value i = s.config.encoder.encode (.long
          (if cmp ((e.x.value i - e.y.value i).setWidth 32 + (S.alpha k.1 + S.alpha k.2)) (S.alpha k.1 + S.alpha k.2)
            then 1 else 0)) := by
  obtain ⟨g1, out, g2, g3, g4⟩ := (history_on_the_fly S hs cmds _ _ (holds_empty s) (fun _ => ⟨rfl, by simp⟩) hok).2 e he
  refine ⟨out, g2, g3, g4.session, WF.reconstruct g3, ?_⟩
  intro i k hk hm
  obtain ⟨_, hxs, _⟩ := (hok _ g1).1
  rw [hop] at g4
  rw [g4.bit cmp i k hk (hkeys _ g1 k (List.mem_of_getElem? hk)) hm, hxs]

/-- C38, comparison with the signed reading of the library: right for secrets less than `2^31` quanta apart. -/
theorem C38_le_signed_partial (S : Sycret Key) {env : Env} {s : Session} (hs : s.Pair env) (cmds : List (FssCmd Key))
    (hok : ∀ c ∈ cmds, c.Ok env s ∧ c.IsCompare) (hkeys : ∀ c ∈ cmds, ∀ k ∈ c.keys, KeysCorrect S SignedLe .comp k)
    (e : FssEvent Key) (he : e ∈ (runFss S env s cmds .empty).1) (hop : e.op = .comp) :
    ∃ out, e.out = .ok out ∧ out.result.reconstruct = .ok out.result.value ∧
      ∀ (i : Fin e.n) (k : Key × Key), e.keys[i.val]? = some k → NoMinOutput S .comp (out.opened i) k →
        -2 ^ 31 ≤ (e.x.value i).toInt - (e.y.value i).toInt → (e.x.value i).toInt - (e.y.value i).toInt < 2 ^ 31 →
        out.result.value i = s.config.encoder.encode (.long (if (e.x.value i).toInt ≤ (e.y.value i).toInt then 1 else 0)) := by
  obtain ⟨out, h1, _, _, h2, h3⟩ := C38_le_partial S hs SignedLe cmds hok hkeys e he hop
  refine ⟨out, h1, h2, ?_⟩
  intro i k hk hm g1 g2
  rw [h3 i k hk hm]
  simp only [signedLe_iff _ _ _ g1 g2]

/-- C38, comparison with the unsigned reading of the library, secrets less than `2^32` quanta apart: the answer is right if
the secrets are equal or adding their difference to the mask does not leave the range of 32 bit numbers, and wrong
otherwise. -/
theorem C38_le_unsigned_partial (S : Sycret Key) {env : Env} {s : Session} (hs : s.Pair env) (cmds : List (FssCmd Key))
    (hok : ∀ c ∈ cmds, c.Ok env s ∧ c.IsCompare) (hkeys : ∀ c ∈ cmds, ∀ k ∈ c.keys, KeysCorrect S UnsignedLe .comp k)
    (e : FssEvent Key) (he : e ∈ (runFss S env s cmds .empty).1) (hop : e.op = .comp) :
    ∃ out, e.out = .ok out ∧ out.result.reconstruct = .ok out.result.value ∧
      ∀ (i : Fin e.n) (k : Key × Key) (d : Int), e.keys[i.val]? = some k → NoMinOutput S .comp (out.opened i) k →
        d = (e.x.value i).toInt - (e.y.value i).toInt → -2 ^ 32 < d → d < 2 ^ 32 →
        out.result.value i = s.config.encoder.encode (.long
          (if (d ≤ 0 ↔ (d = 0 ∨ (0 ≤ (S.alpha k.1 + S.alpha k.2).toNat + d ∧ (S.alpha k.1 + S.alpha k.2).toNat + d < 2 ^ 32)))
            then 1 else 0)) := by
  obtain ⟨out, h1, _, _, h2, h3⟩ := C38_le_partial S hs UnsignedLe cmds hok hkeys e he hop
  refine ⟨out, h1, h2, ?_⟩
  intro i k d hk hm hd g1 g2
  rw [h3 i k hk hm]
  subst hd
  have := unsignedLe_iff (e.x.value i) (e.y.value i) (S.alpha k.1 + S.alpha k.2) g1 g2
  congr 3
  apply propext
  constructor
  · intro h
    have h4 := this
    constructor
    · intro hle
      have := this.mp ⟨fun _ => by omega, fun _ => h⟩
      omega
    · intro hor
      have := this.mpr (by omega)
      have := this.mp h
      omega
  · intro h
    by_cases hle : (e.x.value i).toInt ≤ (e.y.value i).toInt
    · exact (this.mpr (by omega)).mpr hle
    · by_contra hc
      have := this.mp ⟨fun h' => absurd h' hc, fun h' => absurd h' hle⟩
      omega

/-- C38: with the unsigned reading, of the `2^32` masks exactly `|x - y|` (in quanta) make the answer to `x <= y` wrong. -/
theorem C38_le_unsigned_wrong_masks (a b : I64) (h1 : -2 ^ 32 < a.toInt - b.toInt) (h2 : a.toInt - b.toInt < 2 ^ 32) :
    ((Finset.range (2 ^ 32)).filter fun α =>
      ¬ (UnsignedLe ((a - b).setWidth 32 + BitVec.ofNat 32 α) (BitVec.ofNat 32 α) ↔ a.toInt ≤ b.toInt)).card
      = (a.toInt - b.toInt).natAbs := by
  have hset : ((Finset.range (2 ^ 32)).filter fun α =>
      ¬ (UnsignedLe ((a - b).setWidth 32 + BitVec.ofNat 32 α) (BitVec.ofNat 32 α) ↔ a.toInt ≤ b.toInt))
      = if 0 ≤ a.toInt - b.toInt then Finset.Ico (2 ^ 32 - (a.toInt - b.toInt).natAbs) (2 ^ 32)
        else Finset.range (a.toInt - b.toInt).natAbs := by
    ext α
    rw [Finset.mem_filter, Finset.mem_range, unsignedLe_iff a b _ h1 h2]
    constructor
    · intro ⟨hα, h⟩
      rw [BitVec.toNat_ofNat, Nat.mod_eq_of_lt hα] at h
      split
      · rw [Finset.mem_Ico]; omega
      · rw [Finset.mem_range]; omega
    · intro h
      have hα : α < 2 ^ 32 := by
        split at h
        · rw [Finset.mem_Ico] at h; omega
        · rw [Finset.mem_range] at h; omega
      refine ⟨hα, ?_⟩
      rw [BitVec.toNat_ofNat, Nat.mod_eq_of_lt hα]
      split at h
      · rw [Finset.mem_Ico] at h; omega
      · rw [Finset.mem_range] at h; omega
  rw [hset]
  split
  · rw [Nat.card_Ico]; omega
  · rw [Finset.card_range]

/-! ## Examples -/

/-- A stand-in for `sycret` that meets `KeysCorrect` (and hides nothing): a key is the party's share of the mask and the mask
itself; party 0 answers with a random number `rnd` plus the bit, party 1 with minus that number. -/
def exSycret (cmp : BitVec 32 → BitVec 32 → Bool) (rnd : Int) : Sycret (BitVec 32 × BitVec 32) where
  alpha := Prod.fst
  eval := fun op b m k =>
    let bit := match op with
      | .eq => decide (m.setWidth 32 = k.2)
      | .comp => cmp (m.setWidth 32) k.2
    if b = 0 then rnd + (if bit then 1 else 0) else -rnd

/-- the pair of keys with mask shares `a`, `b` -/
def exKey (a b : BitVec 32) : (BitVec 32 × BitVec 32) × (BitVec 32 × BitVec 32) := ((a, a + b), (b, a + b))

theorem exKey_eq (cmp : BitVec 32 → BitVec 32 → Bool) (rnd : Int) (a b : BitVec 32) :
    KeysCorrect (exSycret cmp rnd) (· = ·) .eq (exKey a b) := by
  intro m _ _
  simp only [exSycret, exKey, decide_eq_true_eq]
  by_cases h : m.setWidth 32 = a + b <;> simp [h]

theorem exKey_comp (cmp : BitVec 32 → BitVec 32 → Prop) [DecidableRel cmp] (rnd : Int) (a b : BitVec 32) :
    KeysCorrect (exSycret (fun m α => decide (cmp m α)) rnd) cmp .comp (exKey a b) := by
  intro m _ _
  simp [exSycret, exKey]

theorem exPairPair : exPair.Pair exPairEnv where
  toLive := exPairLive
  pair := rfl
  objects := by
    intro p hp
    rw [exPair, show List.range 2 = [0, 1] from rfl, List.map_cons, List.map_cons, List.map_nil, List.mem_pair] at hp
    rcases hp with rfl | rfl <;> rfl

/-- two comparisons of the same two elements, and the values they give -/
def exCompare2 (S : Sycret (BitVec 32 × BitVec 32)) (a b : Fin 2 → I64) (pre : List ((BitVec 32 × BitVec 32) × (BitVec 32 × BitVec 32))) :
    List (Py (List I64)) :=
  let x := exPairSecret (fun i => a i + 77) (fun _ : Fin 2 => BitVec.ofInt 64 (-77))
  let y := exPairSecret (fun i => b i - 5) (fun _ : Fin 2 => 5)
  let cmds : List (FssCmd (BitVec 32 × BitVec 32)) :=
    [.provide .eq pre, .compare 2 .eq [exKey 9 4000000000, exKey 8 1] x y, .compare 2 .comp [exKey 7 4000000000, exKey 1 1] x y]
  (runFss S exPairEnv exPair cmds .empty).1.map fun e =>
    match e.out with
    | .ok out => out.result.reconstruct.map fun v => (List.range 2).map fun i => if h : i < e.n then v ⟨i, h⟩ else 0
    | .error err => .error err

/-- C38: `[3, 2^32 + 8] == [4, 8]` and `[3, 2^32 + 8] <= [4, 8]` in quanta: the second element is reported equal, and with the
signed reading less or equal. -/
example : exCompare2 (exSycret (fun m α => decide (SignedLe m α)) 123456) ![3, 0x100000008#64] ![4, 8] []
      = [.ok [0, 65536], .ok [65536, 65536]] := by decide +kernel

/-- C38, the unsigned reading: `1 <= -1` comes out true with the mask `2^32 - 1` (the sum of the mask shares). -/
example : (match (fssOp (exSycret (fun m α => decide (UnsignedLe m α)) 5) exPairEnv .comp [exKey 1 0xfffffffe#32]
      (exPairSecret (fun _ : Fin 1 => 1) (fun _ => 0)) (exPairSecret (fun _ => 4) (fun _ => BitVec.ofInt 64 (-5))) .empty).1 with
    | .ok out => out.result.reconstruct.map fun v : Fin 1 → I64 => v 0
    | .error e => .error e) = .ok 65536 := by decide +kernel

/-- C38, without `NoMinOutput`: outputs `-2^31` of both parties for a false comparison add up to `-2^32`, not 0. -/
theorem C38_min_output_wrong :
    (match (fssOp (exSycret (fun _ _ => false) (2 ^ 31)) exPairEnv .eq [exKey 1 1]
      (exPairSecret (fun _ : Fin 1 => 1) (fun _ => 0)) (exPairSecret (fun _ => 4) (fun _ => BitVec.ofInt 64 (-5))) .empty).1 with
    | .ok out => out.result.reconstruct.map fun v : Fin 1 → I64 => v 0
    | .error e => .error e) = .ok (BitVec.ofInt 64 (-2 ^ 48)) ∧
    KeysCorrect (exSycret (fun _ _ => false) (2 ^ 31)) (· = ·) .eq (exKey 1 1) :=
  ⟨by decide +kernel, exKey_eq _ _ _ _⟩

/-- C59: two keys provided ahead are used by the first `==` of two elements (the third key of the batch is thrown away); one
key provided ahead makes it fail. -/
example : exCompare2 (exSycret (fun m α => decide (SignedLe m α)) 123456) ![3, 8] ![4, 8] [exKey 1 1, exKey 2 2, exKey 3 3]
      = [.ok [0, 65536], .ok [65536, 65536]] ∧
    exCompare2 (exSycret (fun m α => decide (SignedLe m α)) 123456) ![3, 8] ![4, 8] [exKey 1 1]
      = [.error .valueError, .ok [65536, 65536]] := by decide +kernel

/-- the hypotheses of the theorems above, on a history of two comparisons -/
example : ∃ cmds : List (FssCmd (BitVec 32 × BitVec 32)), cmds.length = 2 ∧ exPair.Pair exPairEnv ∧
    (∀ c ∈ cmds, c.Ok exPairEnv exPair ∧ c.IsCompare) ∧
    (∀ c ∈ cmds, ∀ k ∈ c.keys, KeysCorrect (exSycret (fun m α => decide (SignedLe m α)) 0) (· = ·) .eq k) ∧
    (∀ c ∈ cmds, ∀ k ∈ c.keys, KeysCorrect (exSycret (fun m α => decide (SignedLe m α)) 0) SignedLe .comp k) ∧
    ((cmds.filter (·.op = .eq)).flatMap (·.keys)).Nodup := by
  refine ⟨[.compare 2 .eq [exKey 1 1, exKey 1 2] (exPairSecret (fun _ => 1) (fun _ => 2)) (exPairSecret (fun _ => 1) (fun _ => 2)),
    .compare 1 .comp [exKey 3 4] (exPairSecret (fun _ => 1) (fun _ => 2)) (exPairSecret (fun _ => 1) (fun _ => 2))],
    rfl, exPairPair, ?_, ?_, ?_, by decide⟩
  · intro c hc
    simp only [List.mem_cons, List.not_mem_nil, or_false] at hc
    rcases hc with rfl | rfl
    · exact ⟨⟨rfl, rfl, rfl, exPairSecret_wf _ _, exPairSecret_wf _ _⟩, trivial⟩
    · exact ⟨⟨rfl, rfl, rfl, exPairSecret_wf _ _, exPairSecret_wf _ _⟩, trivial⟩
  · intro c hc k hk
    simp only [List.mem_cons, List.not_mem_nil, or_false] at hc
    rcases hc with rfl | rfl
    · simp only [FssCmd.keys, List.mem_cons, List.not_mem_nil, or_false] at hk
      rcases hk with rfl | rfl <;> exact exKey_eq _ _ _ _
    · simp only [FssCmd.keys, List.mem_cons, List.not_mem_nil, or_false] at hk
      subst hk
      exact exKey_eq _ _ _ _
  · intro c hc k hk
    simp only [List.mem_cons, List.not_mem_nil, or_false] at hc
    rcases hc with rfl | rfl
    · simp only [FssCmd.keys, List.mem_cons, List.not_mem_nil, or_false] at hk
      rcases hk with rfl | rfl <;> exact exKey_comp _ _ _ _
    · simp only [FssCmd.keys, List.mem_cons, List.not_mem_nil, or_false] at hk
      subst hk
      exact exKey_comp _ _ _ _

end SyMPC
