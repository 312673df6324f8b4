import Verif.Model.Equality
import Verif.Lemmas.Grad
import Mathlib.Data.List.GetD

/-!
# C67: what comparing sessions, protocols and shares means

Specification: sessions are equal when all that matters for a computation agrees (everything but the names and the connections);
shares are equal when they have the same elements, scale and session.
-/

namespace SyMPC.Equality

open Tensor

/-! ### Sessions -/

theorem protocolEq_iff (p q : Protocol) : protocolEq p q = true ↔ p.name = q.name ∧ p.security = q.security := by
  unfold protocolEq
  by_cases h1 : p.security = q.security <;> by_cases h2 : p.name = q.name <;> simp [h1, h2]

/-- what two equal sessions have in common -/
structure Agree (s t : FullSession) : Prop where
  uuid : s.uuid = t.uuid
  rankToUuid : s.rankToUuid = t.rankToUuid
  nrParties : s.nrParties = t.nrParties
  ttp : s.trustedThirdParty = t.trustedThirdParty
  protocol : s.protocol.name = t.protocol.name
  security : s.protocol.security = t.protocol.security
  config : s.config = t.config
  rank : s.rank = t.rank
  ring : s.ringSize = t.ringSize
  low : s.minValue = t.minValue
  high : s.maxValue = t.maxValue
  type : s.tensorType = t.tensorType
  autograd : s.autogradActive = t.autogradActive

/-- two sessions are equal exactly when they agree -/
theorem C67_session_eq (s t : FullSession) : s.eq (some t) = true ↔ Agree s t := by
  have h : s.eq (some t) = ["uuid", "rank_to_uuid", "nr_parties", "trusted_third_party", "protocol", "config", "rank", "ring_size",
      "min_value", "max_value", "tensor_type", "autograd_active"].all fun a => (s.get a).eq (t.get a) := rfl
  rw [h]
  simp only [List.all_cons, List.all_nil, Bool.and_true, Bool.and_eq_true, FullSession.get, Attr.eq, decide_eq_true_eq, Attr.opt.injEq,
    Attr.nats.injEq, Attr.nat.injEq, Attr.config.injEq, Attr.int.injEq, Attr.dtype.injEq, Attr.bool.injEq, protocolEq_iff]
  constructor
  · rintro ⟨h1, h2, h3, h4, ⟨h5, h6⟩, h7, h8, h9, h10, h11, h12, h13⟩
    exact ⟨h1, h2, h3, h4, h5, h6, h7, h8, h9, h10, h11, h12, h13⟩
  · rintro ⟨h1, h2, h3, h4, h5, h6, h7, h8, h9, h10, h11, h12, h13⟩
    exact ⟨h1, h2, h3, h4, ⟨h5, h6⟩, h7, h8, h9, h10, h11, h12, h13⟩

/-- equality of sessions is an equivalence, and no session equals an object of another class -/
theorem C67_session_equivalence :
    (∀ s : FullSession, s.eq (some s) = true) ∧ (∀ s t : FullSession, s.eq (some t) = t.eq (some s)) ∧
      (∀ s t u : FullSession, s.eq (some t) = true → t.eq (some u) = true → s.eq (some u) = true) ∧
      ∀ s : FullSession, s.eq none = false := by
  have hsymm : ∀ s t : FullSession, s.eq (some t) = true → t.eq (some s) = true := by
    intro s t h
    rw [C67_session_eq] at h ⊢
    exact ⟨h.1.symm, h.2.symm, h.3.symm, h.4.symm, h.5.symm, h.6.symm, h.7.symm, h.8.symm, h.9.symm, h.10.symm, h.11.symm, h.12.symm,
      h.13.symm⟩
  refine ⟨fun s => (C67_session_eq s s).mpr ⟨rfl, rfl, rfl, rfl, rfl, rfl, rfl, rfl, rfl, rfl, rfl, rfl, rfl⟩, fun s t => ?_,
    fun s t u h1 h2 => ?_, fun _ => rfl⟩
  · rw [Bool.eq_iff_iff]
    exact ⟨hsymm s t, hsymm t s⟩
  · rw [C67_session_eq] at h1 h2 ⊢
    exact ⟨h1.1.trans h2.1, h1.2.trans h2.2, h1.3.trans h2.3, h1.4.trans h2.4, h1.5.trans h2.5, h1.6.trans h2.6, h1.7.trans h2.7,
      h1.8.trans h2.8, h1.9.trans h2.9, h1.10.trans h2.10, h1.11.trans h2.11, h1.12.trans h2.12, h1.13.trans h2.13⟩

/-- two sessions made with the same arguments are equal, whatever their parties are, as long as there are equally many -/
theorem C67_session_new (id id' : Nat) (tags tags' : List String) (desc desc' : String) (ps qs : List Nat) (ring : Nat) (t : DType)
    (c : Config) (p : Protocol) (ttp : Option Nat) :
    (FullSession.new id tags desc ps ring t c p ttp).eq (some (FullSession.new id' tags' desc' qs ring t c p ttp)) = true ↔
      ps.length = qs.length := by
  rw [C67_session_eq]
  exact ⟨fun h => h.nrParties, fun h => ⟨rfl, rfl, h, rfl, rfl, rfl, rfl, rfl, rfl, rfl, rfl, rfl, rfl⟩⟩

example : Agree (FullSession.new 1 [] "a" [10, 11] (2 ^ 64) .int64 {} fssProtocol none)
    (FullSession.new 2 ["x"] "b" [12, 13] (2 ^ 64) .int64 {} fssProtocol none) := by
  constructor <;> rfl

/-- Sessions made in the rings `2^8`, …, `2^64` have the numbers of the signed type of the ring as their range, and two of them are
equal exactly when ring, configuration, protocol (name and security), third party and the number of parties are the same. -/
theorem C67_session_ring (w w' : Nat) (hw : w = 8 ∨ w = 16 ∨ w = 32 ∨ w = 64)
    (t t' : DType) (ht : getTypeFromRing (2 ^ w) = .ok t) (ht' : getTypeFromRing (2 ^ w') = .ok t') (id id' : Nat)
    (tags tags' : List String) (desc desc' : String) (ps qs : List Nat) (c c' : Config) (p p' : Protocol) (ttp ttp' : Option Nat) :
    let s := FullSession.new id tags desc ps (2 ^ w) t c p ttp
    s.minValue = -2 ^ (w - 1) ∧ s.maxValue = 2 ^ (w - 1) - 1 ∧
      (s.eq (some (FullSession.new id' tags' desc' qs (2 ^ w') t' c' p' ttp')) = true ↔
        w = w' ∧ c = c' ∧ p.name = p'.name ∧ p.security = p'.security ∧ ttp = ttp' ∧ ps.length = qs.length) := by
  refine ⟨?_, ?_, ?_⟩
  · rcases hw with rfl | rfl | rfl | rfl <;> rfl
  · rcases hw with rfl | rfl | rfl | rfl <;> rfl
  · rw [C67_session_eq]
    constructor
    · intro h
      exact ⟨Nat.pow_right_injective (le_refl 2) h.ring, h.config, h.protocol, h.security, h.ttp, h.nrParties⟩
    · rintro ⟨rfl, rfl, h1, h2, rfl, h3⟩
      rw [ht] at ht'
      cases ht'
      exact ⟨rfl, rfl, h3, rfl, h1, h2, rfl, rfl, rfl, rfl, rfl, rfl, rfl⟩

/-! ### Shares -/

section
variable {X : Type} [DecidableEq X]

/-- the sessions of two shares do not contradict each other -/
def Compatible (x y : Option Nat) : Prop := ∀ u v, x = some u → y = some v → u = v

theorem uuidsDiffer_iff (x y : Option Nat) : uuidsDiffer x y = false ↔ Compatible x y := by
  cases x <;> cases y <;> simp [uuidsDiffer, Compatible]

theorem allEqual_same (x y : Tensor X) (h : x.shape = y.shape) :
    ∃ b, allEqual x y = .ok b ∧ (b = true ↔ Same x y) := by
  obtain ⟨r, h1, h2, h3⟩ := Grad.zip_same (fun a b => decide (a = b)) x y h.symm
  refine ⟨(indices r.shape).all r.at_, ?_, ?_⟩
  · unfold allEqual
    rw [h1]
    rfl
  · rw [List.all_eq_true]
    constructor
    · intro ha
      refine ⟨h, fun o ho => ?_⟩
      have := ha o ((mem_indices _ _).mpr (h2 ▸ ho))
      rw [h3 o ho, decide_eq_true_eq] at this
      exact this
    · intro hs o ho
      have ho : ValidIdx x.shape o := h2 ▸ (mem_indices _ _).mp ho
      rw [h3 o ho, decide_eq_true_eq]
      exact hs.2 o ho

/-- shares of the same shape are equal exactly when their elements and scales are, and their sessions do not contradict each other -/
theorem C67_share_eq_partial (x y : ShareTensor (Tensor X)) (h : x.tensor.shape = y.tensor.shape) :
    ∃ b, shareEq x y = .ok b ∧ (b = true ↔ Same x.tensor y.tensor ∧ x.config = y.config ∧ Compatible x.sessionUuid y.sessionUuid) := by
  obtain ⟨b, h1, h2⟩ := allEqual_same x.tensor y.tensor h
  unfold shareEq
  rw [h1, ok_bind, ← h2, ← uuidsDiffer_iff]
  cases b with
  | false => exact ⟨false, rfl, by simp⟩
  | true =>
    by_cases hc : x.config = y.config
    · cases hu : uuidsDiffer x.sessionUuid y.sessionUuid with
      | true => exact ⟨false, by simp [hc, pure, Except.pure], by simp⟩
      | false => exact ⟨true, by simp [hc, pure, Except.pure], by simp [hc]⟩
    · exact ⟨false, by simp [hc, pure, Except.pure], by simp [hc]⟩

/-- a share is equal to itself -/
theorem C67_share_refl (x : ShareTensor (Tensor X)) : shareEq x x = .ok true := by
  obtain ⟨b, h1, h2⟩ := C67_share_eq_partial x x rfl
  rw [h1, h2.mpr ⟨⟨rfl, fun _ _ => rfl⟩, rfl, fun u v hu hv => Option.some.inj (hu.symm.trans hv)⟩]

theorem broadcastDim_comm (a b : Nat) : broadcastDim a b = broadcastDim b a := by
  unfold broadcastDim
  by_cases h : a = b
  · subst h
    rfl
  · rw [if_neg h, if_neg (Ne.symm h)]
    by_cases h1 : a = 1 <;> by_cases h2 : b = 1 <;> simp [h1, h2]

theorem broadcastRev_comm (x y : List Nat) : broadcastRev x y = broadcastRev y x := by
  induction x generalizing y with
  | nil => cases y <;> rfl
  | cons a x ih =>
    cases y with
    | nil => rfl
    | cons b y =>
      unfold broadcastRev
      rw [broadcastDim_comm, ih]

/-- comparing shares is symmetric, whatever their shapes -/
theorem C67_share_symm (x y : ShareTensor (Tensor X)) : shareEq x y = shareEq y x := by
  have h1 : allEqual x.tensor y.tensor = allEqual y.tensor x.tensor := by
    unfold allEqual zip broadcastShape
    rw [broadcastRev_comm]
    cases broadcastRev y.tensor.shape.reverse x.tensor.shape.reverse with
    | error e => rfl
    | ok s =>
      have : ∀ o, decide (x.tensor.at_ (sourceIdx x.tensor.shape o) = y.tensor.at_ (sourceIdx y.tensor.shape o)) =
          decide (y.tensor.at_ (sourceIdx y.tensor.shape o) = x.tensor.at_ (sourceIdx x.tensor.shape o)) :=
        fun o => decide_eq_decide.mpr eq_comm
      change Except.ok ((indices _).all _) = Except.ok ((indices _).all _)
      simp only [this]
  have h2 : uuidsDiffer x.sessionUuid y.sessionUuid = uuidsDiffer y.sessionUuid x.sessionUuid := by
    cases x.sessionUuid <;> cases y.sessionUuid <;> first | rfl | exact decide_eq_decide.mpr ne_comm
  have h3 : (x.config ≠ y.config) = (y.config ≠ x.config) := propext ne_comm
  unfold shareEq
  rw [h1, h2]
  simp only [h3]

/-- a share with the given tensor -/
def exShare (uuid : Option Nat) (s : List Nat) (l : List Nat) : ShareTensor (Tensor Nat) :=
  ⟨⟨s, fun i => l.getD (i.foldl (· + ·) 0) 0⟩, uuid, {}, 2 ^ 64⟩

/-- Equality of shares is not transitive: a share without a session equals the shares of two different sessions. -/
theorem C67_share_not_transitive :
    shareEq (exShare (some 1) [2] [3, 4]) (exShare none [2] [3, 4]) = .ok true ∧
    shareEq (exShare none [2] [3, 4]) (exShare (some 2) [2] [3, 4]) = .ok true ∧
    shareEq (exShare (some 1) [2] [3, 4]) (exShare (some 2) [2] [3, 4]) = .ok false := by
  decide +kernel

/-- Shares of different shapes can be equal: torch broadcasts; an empty share equals every share with one element.  Shapes that do not fit
raise instead of being unequal. -/
theorem C67_share_shapes_ignored :
    shareEq (exShare none [3] [7, 7, 7]) (exShare none [1] [7]) = .ok true ∧
    shareEq (exShare none [0] []) (exShare none [1] [5]) = .ok true ∧
    shareEq (exShare none [2] [1, 2]) (exShare none [3] [1, 2, 3]) = .error .runtimeError := by
  decide +kernel

/-- the ring is not compared -/
theorem C67_share_ring_ignored (x : ShareTensor (Tensor X)) (r : Nat) : shareEq x { x with ringSize := r } = .ok true :=
  C67_share_refl x

example : ∃ x y : ShareTensor (Tensor Nat), x.tensor.shape = y.tensor.shape ∧ shareEq x y = .ok false :=
  ⟨exShare none [2] [1, 2], exShare none [2] [1, 3], rfl, by decide +kernel⟩

/-! ### Replicated shares -/

theorem locate_first (d : Nat) (sizes : List Nat) (i : Nat) (h : i < d) : locate (d :: sizes) i = (0, i) := if_pos h

theorem locate_later (d : Nat) (sizes : List Nat) (i : Nat) (h : ¬ i < d) :
    locate (d :: sizes) i = ((locate sizes (i - d)).1 + 1, (locate sizes (i - d)).2) := if_neg h

theorem locate_offset (sizes : List Nat) (k j : Nat) (hj : j < sizes.getD k 0) : locate sizes ((sizes.take k).sum + j) = (k, j) := by
  induction sizes generalizing k with
  | nil => simp at hj
  | cons d sizes ih =>
    cases k with
    | zero =>
      rw [List.take_zero, List.sum_nil, Nat.zero_add]
      exact locate_first _ _ _ (by simpa using hj)
    | succ k =>
      rw [List.take_succ_cons, List.sum_cons, locate_later _ _ _ (by omega), show d + (sizes.take k).sum + j - d = (sizes.take k).sum + j by omega,
        ih k (by simpa using hj)]

theorem locate_bounds (sizes : List Nat) (i : Nat) (h : i < sizes.sum) :
    (locate sizes i).1 < sizes.length ∧ (locate sizes i).2 < sizes.getD (locate sizes i).1 0 := by
  induction sizes generalizing i with
  | nil => simp at h
  | cons d sizes ih =>
    by_cases hd : i < d
    · rw [locate_first _ _ _ hd]
      exact ⟨by simp, by simpa using hd⟩
    · rw [locate_later _ _ _ hd]
      obtain ⟨h1, h2⟩ := ih (i - d) (by simp only [List.sum_cons] at h; omega)
      exact ⟨by simpa using h1, by simpa using h2⟩

omit [DecidableEq X] in
/-- concatenation of tensors whose shapes differ in the first dimension only -/
theorem catAll_ok (ts : List (Tensor X)) (tail : List Nat) (hne : ts ≠ []) (h : ∀ t ∈ ts, ∃ d, t.shape = d :: tail) :
    ∃ c, catAll ts = .ok c ∧ c.shape = (ts.map fun t => t.shape.headD 0).sum :: tail ∧
      ∀ i is, (hi : (locate (ts.map fun t => t.shape.headD 0) i).1 < ts.length) →
        c.at_ (i :: is) = ts[(locate (ts.map fun t => t.shape.headD 0) i).1].at_ ((locate (ts.map fun t => t.shape.headD 0) i).2 :: is) := by
  obtain ⟨t, ts', rfl⟩ := List.exists_cons_of_ne_nil hne
  obtain ⟨d, hd⟩ := h t List.mem_cons_self
  have hany : ((t :: ts').any fun u => decide (u.shape = [])) = false := by
    rw [List.any_eq_false]
    intro u hu
    obtain ⟨d, hd⟩ := h u hu
    simp [hd]
  have hall : ((t :: ts').all fun u => decide (u.shape.length = t.shape.length ∧ u.shape.eraseIdx 0 = t.shape.eraseIdx 0)) = true := by
    rw [List.all_eq_true]
    intro u hu
    obtain ⟨d', hd'⟩ := h u hu
    simp [hd, hd']
  have hs : ((t :: ts').map fun u => u.shape.getD 0 0) = (t :: ts').map fun u => u.shape.headD 0 := by
    refine List.map_congr_left fun u hu => ?_
    obtain ⟨d', hd'⟩ := h u hu
    simp [hd']
  unfold catAll Tensor.cat
  rw [if_neg (by simp [hany])]
  dsimp only
  rw [if_neg (by simp [hd]), if_pos hall, hs]
  refine ⟨_, rfl, ?_, fun i is hi => ?_⟩
  · simp [hd]
  · simp only [List.getD_cons_zero, List.getElem?_eq_getElem hi, List.set_cons_zero]

/-- Replicated shares whose tensors have the same shapes are equal exactly when all their tensors, scales and rings are, and their sessions
do not contradict each other. -/
theorem C67_replicated_eq_partial (x y : RST (Tensor X)) (tail : List Nat) (hne : x.shares ≠ [])
    (hx : ∀ t ∈ x.shares, ∃ d, t.shape = d :: tail) (hxy : x.shares.map (·.shape) = y.shares.map (·.shape)) :
    ∃ b, replicatedEq x y = .ok b ∧ (b = true ↔ List.Forall₂ Same x.shares y.shares ∧ x.config = y.config ∧
      Compatible x.sessionUuid y.sessionUuid ∧ x.ringSize = y.ringSize) := by
  have hlen : x.shares.length = y.shares.length := by simpa using congrArg List.length hxy
  have hshape : ∀ k (h1 : k < x.shares.length) (h2 : k < y.shares.length), x.shares[k].shape = y.shares[k].shape := by
    intro k h1 h2
    have := List.getElem_of_eq hxy (i := k) (by simpa using h1)
    simpa using this
  have hy : ∀ t ∈ y.shares, ∃ d, t.shape = d :: tail := by
    intro t ht
    obtain ⟨k, hk, rfl⟩ := List.getElem_of_mem ht
    rw [← hshape k (by omega) hk]
    exact hx _ (List.getElem_mem _)
  have hsizes : (x.shares.map fun t => t.shape.headD 0) = y.shares.map fun t => t.shape.headD 0 := by
    have := congrArg (List.map fun s => List.headD s 0) hxy
    rw [List.map_map, List.map_map] at this
    exact this
  obtain ⟨cx, a1, a2, a3⟩ := catAll_ok x.shares tail hne hx
  obtain ⟨cy, b1, b2, b3⟩ := catAll_ok y.shares tail (by intro h; rw [h] at hlen; exact hne (List.length_eq_zero_iff.mp hlen)) hy
  rw [← hsizes] at b2 b3
  obtain ⟨b, h1, h2⟩ := allEqual_same cx cy (a2.trans b2.symm)
  have key : Same cx cy ↔ List.Forall₂ Same x.shares y.shares := by
    constructor
    · intro hs
      rw [List.forall₂_iff_get]
      refine ⟨hlen, fun k k1 k2 => ⟨hshape k k1 k2, fun o ho => ?_⟩⟩
      simp only [List.get_eq_getElem] at ho ⊢
      obtain ⟨d, hd⟩ := hx _ (List.getElem_mem k1)
      rw [hd] at ho
      match o, ho with
      | j :: js, ho =>
        have hsz : k < (x.shares.map fun t => t.shape.headD 0).length := by simpa using k1
        have hj : j < (x.shares.map fun t => t.shape.headD 0)[k] := by
          rw [List.getElem_map, hd]
          exact ho.1
        have hloc := locate_offset (x.shares.map fun t => t.shape.headD 0) k j (by rw [List.getD_eq_getElem _ _ hsz]; exact hj)
        have hlt : ((x.shares.map fun t => t.shape.headD 0).take k).sum + j < (x.shares.map fun t => t.shape.headD 0).sum := by
          have := List.sum_take_add_sum_drop (x.shares.map fun t => t.shape.headD 0) k
          rw [List.drop_eq_getElem_cons hsz, List.sum_cons] at this
          omega
        have e := hs.2 ((((x.shares.map fun t => t.shape.headD 0).take k).sum + j) :: js) (by rw [a2]; exact ⟨hlt, ho.2⟩)
        rw [a3 _ _ (by rw [hloc]; exact k1), b3 _ _ (by rw [hloc]; exact k2)] at e
        simp only [hloc] at e
        exact e
    · intro hf
      refine ⟨a2.trans b2.symm, fun o ho => ?_⟩
      rw [a2] at ho
      match o, ho with
      | i :: is, ho =>
        obtain ⟨k1, k2⟩ := locate_bounds _ i ho.1
        have k1' : (locate (x.shares.map fun t => t.shape.headD 0) i).1 < x.shares.length := by simpa using k1
        rw [a3 i is k1', b3 i is (by omega)]
        refine ((List.forall₂_iff_get.mp hf).2 _ k1' (by omega)).2 _ ?_
        simp only [List.get_eq_getElem]
        obtain ⟨d, hd⟩ := hx _ (List.getElem_mem k1')
        rw [hd]
        refine ⟨?_, ho.2⟩
        rw [List.getD_eq_getElem _ _ k1, List.getElem_map, hd] at k2
        exact k2
  unfold replicatedEq
  rw [a1, ok_bind, b1, ok_bind, h1, ok_bind, ← key, ← h2, ← uuidsDiffer_iff]
  cases b with
  | false => exact ⟨false, rfl, by simp⟩
  | true =>
    by_cases hc : x.config = y.config
    · cases hu : uuidsDiffer x.sessionUuid y.sessionUuid with
      | true => exact ⟨false, by simp [hc, pure, Except.pure], by simp⟩
      | false =>
        by_cases hr : x.ringSize = y.ringSize
        · exact ⟨true, by simp [hc, hr, pure, Except.pure], by simp [hc, hr]⟩
        · exact ⟨false, by simp [hc, hr, pure, Except.pure], by simp [hr]⟩
    · exact ⟨false, by simp [hc, pure, Except.pure], by simp [hc]⟩

/-- a vector -/
def exVec (l : List Nat) : Tensor Nat := ⟨[l.length], fun i => l.getD (i.getD 0 0) 0⟩

/-- Only the concatenation of the tensors is compared: `[1, 2], [3]` and `[1], [2, 3]` are equal; replicated shares of tensors without
dimensions cannot be compared. -/
theorem C67_replicated_split_ignored :
    replicatedEq ⟨[exVec [1, 2], exVec [3]], none, {}, 2 ^ 64⟩ ⟨[exVec [1], exVec [2, 3]], none, {}, 2 ^ 64⟩ = .ok true ∧
    replicatedEq (X := Nat) ⟨[⟨[], fun _ => 1⟩], none, {}, 2 ^ 64⟩ ⟨[⟨[], fun _ => 1⟩], none, {}, 2 ^ 64⟩ = .error .runtimeError := by
  decide +kernel

example : ∃ x y : RST (Tensor Nat), x.shares ≠ [] ∧ (∀ t ∈ x.shares, ∃ d, t.shape = d :: []) ∧
    x.shares.map (·.shape) = y.shares.map (·.shape) ∧ replicatedEq x y = .ok false :=
  ⟨⟨[exVec [1, 2], exVec [3]], none, {}, 2 ^ 64⟩, ⟨[exVec [1, 2], exVec [4]], none, {}, 2 ^ 64⟩, by simp, by simp [exVec], rfl,
    by decide +kernel⟩

end

/-! ### Order -/

/-- `<` and `>` of shares compare the elements of the shares; shares of different sessions are refused -/
theorem C67_share_order {X : Type} [LT X] [DecidableLT X] (x y : ShareTensor (Tensor X)) :
    (Compatible y.sessionUuid x.sessionUuid → x.tensor.shape = y.tensor.shape →
      (∃ r, shareLt x y = .ok r ∧ r.shape = x.tensor.shape ∧ ∀ o, ValidIdx x.tensor.shape o → (r.at_ o = true ↔ x.tensor.at_ o < y.tensor.at_ o)) ∧
      (∃ r, shareGt x y = .ok r ∧ r.shape = x.tensor.shape ∧ ∀ o, ValidIdx x.tensor.shape o → (r.at_ o = true ↔ y.tensor.at_ o < x.tensor.at_ o))) ∧
    (¬ Compatible y.sessionUuid x.sessionUuid → shareLt x y = .error .valueError ∧ shareGt x y = .error .valueError) := by
  unfold shareLt shareGt
  rw [← uuidsDiffer_iff]
  cases uuidsDiffer y.sessionUuid x.sessionUuid with
  | true => exact ⟨fun h => (by cases h), fun _ => ⟨rfl, rfl⟩⟩
  | false =>
    refine ⟨fun _ h => ⟨?_, ?_⟩, fun h => absurd rfl h⟩
    · obtain ⟨r, h1, h2, h3⟩ := Grad.zip_same (fun a b => decide (a < b)) x.tensor y.tensor h.symm
      exact ⟨r, h1, h2, fun o ho => by rw [h3 o ho, decide_eq_true_eq]⟩
    · obtain ⟨r, h1, h2, h3⟩ := Grad.zip_same (fun a b => decide (b < a)) x.tensor y.tensor h.symm
      exact ⟨r, h1, h2, fun o ho => by rw [h3 o ho, decide_eq_true_eq]⟩

/-- The order of shares tells nothing about the order of the secrets: for any two secrets there are sharings for which the first shares are
in the wanted order. -/
theorem C67_share_order_meaningless (v w : Int) (b : Bool) :
    ∃ x0 x1 y0 y1 : Int, x0 + x1 = v ∧ y0 + y1 = w ∧
      ∃ r, shareLt (⟨⟨[], fun _ => x0⟩, none, {}, 2 ^ 64⟩ : ShareTensor (Tensor Int)) ⟨⟨[], fun _ => y0⟩, none, {}, 2 ^ 64⟩ = .ok r ∧
        r.at_ [] = b := by
  cases b with
  | true => exact ⟨0, v, 1, w - 1, by omega, by omega, _, rfl, rfl⟩
  | false => exact ⟨1, v - 1, 0, w, by omega, by omega, _, rfl, rfl⟩

end SyMPC.Equality
