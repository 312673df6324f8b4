import Verif.Lemmas.Przs
import Verif.Lemmas.Ring
import Verif.Props.Share

/-!
# C05, C06, C07: pseudo-random sharings
-/

namespace SyMPC

variable {Seed St Req Raw : Type}

/-- The parties' requests are collective calls: every party gets the same requests `reqs`, in some interleaving. -/
def Collective (n : Nat) (es : List (Nat × Req)) (reqs : List Req) : Prop :=
  (∀ e ∈ es, e.1 < n) ∧ ∀ r < n, outsOf r es = reqs

/-- after set up and any history of collective calls, the raw values drawn in call `k` by party `r` are `v r` and
`v (r + 1)` -/
theorem przs_raw (G : Gen Seed St Req Raw) (seeds : List Seed) (hne : seeds ≠ []) (es : List (Nat × Req))
    (reqs : List Req) (hes : Collective seeds.length es reqs) :
    ∃ sts outs, setupPrzs G seeds seeds.length seeds.length = .ok sts ∧ serve G sts es = .ok outs ∧
      ∀ k < reqs.length, ∃ v : Nat → Raw, ∀ r < seeds.length,
        (outsOf r outs)[k]? = some (v r, v ((r + 1) % seeds.length)) := by
  have hn : 0 < seeds.length := List.length_pos_iff.mpr hne
  have hmod : ∀ r, r % seeds.length < seeds.length := fun r => Nat.mod_lt _ hn
  let sd : Nat → Seed := fun r => seeds[r % seeds.length]'(hmod r)
  let st : Nat → St × St := fun r => (G.init (sd r), G.init (sd (r + 1)))
  have hsetup : setupPrzs G seeds seeds.length seeds.length = .ok ((List.range seeds.length).map st) := by
    apply mapM_ok
    intro r hr
    rw [List.mem_range] at hr
    simp only [pyGet_ok hr, pyGet_ok (hmod (r + 1)), ok_bind]
    simp [initGenerators, pure_eq_ok, st, sd, Nat.mod_eq_of_lt hr]
  obtain ⟨outs, h1, h2⟩ := serve_ok G es ((List.range seeds.length).map st) (by simpa using hes.1)
  refine ⟨_, outs, hsetup, h1, ?_⟩
  intro k hk
  have hlen : ∀ s, k < (genOuts G s reqs).length := by intro s; rw [genOuts_length]; exact hk
  refine ⟨fun r => (genOuts G (G.init (sd r)) reqs)[k]'(hlen _), ?_⟩
  intro r hr
  rw [h2 r (st r) (by simp [hr]), hes.2 r hr]
  simp only [st]
  rw [List.getElem?_eq_getElem (by simp [genOuts_length]; exact hk)]
  simp [sd]

/-- C06: after set up and any history of collective calls, served in any interleaving, every call of
`prrs_generate_random_share` gives a consistent sharing: the second share of party `r` equals the first share of
party `r + 1` (cyclically). -/
theorem C06_prrs_consistent (G : Gen Seed St Req Raw) (seeds : List Seed) (hne : seeds ≠ []) (es : List (Nat × Req))
    (reqs : List Req) (hes : Collective seeds.length es reqs) {E : Type} (toE : Raw → E) :
    ∃ sts outs, setupPrzs G seeds seeds.length seeds.length = .ok sts ∧ serve G sts es = .ok outs ∧
      ∀ k < reqs.length, ∃ sh : Nat → List E,
        (∀ r < seeds.length, ((outsOf r outs)[k]?).map (prrsReplicated toE) = some (sh r)) ∧
        ∀ r < seeds.length, (sh r).length = 2 ∧ (sh r)[1]? = (sh ((r + 1) % seeds.length))[0]? := by
  obtain ⟨sts, outs, h1, h2, h3⟩ := przs_raw G seeds hne es reqs hes
  refine ⟨sts, outs, h1, h2, fun k hk => ?_⟩
  obtain ⟨v, hv⟩ := h3 k hk
  refine ⟨fun r => [toE (v r), toE (v ((r + 1) % seeds.length))], fun r hr => ?_, fun r hr => ?_⟩
  · rw [hv r hr]; rfl
  · simp

/-- C05: after set up and any history of collective calls (of zero shares or random shares, for any shapes and
rings), served in any interleaving, the zero shares of every call add up to zero: with replicated shares in each of
the rings, with the ring's own sum, -/
theorem C05_przs_sum_zero (G : Gen Seed St Req Raw) (seeds : List Seed) (hne : seeds ≠ []) (es : List (Nat × Req))
    (reqs : List Req) (hes : Collective seeds.length es reqs) {E R : Type} [CommRing R] (I : RingOps E)
    (S : RingSem I R) (toE : Raw → E) (hvalid : ∀ x, S.Valid (toE x)) :
    ∃ sts outs, setupPrzs G seeds seeds.length seeds.length = .ok sts ∧ serve G sts es = .ok outs ∧
      ∀ k < reqs.length, ∃ (sh : Nat → E) (z : E),
        (∀ r < seeds.length, ((outsOf r outs)[k]?).map (przsReplicated I toE) = some [sh r]) ∧
        I.sum ((List.range seeds.length).map sh) = .ok z ∧ S.Valid z ∧ S.den z = 0 := by
  obtain ⟨sts, outs, h1, h2, h3⟩ := przs_raw G seeds hne es reqs hes
  refine ⟨sts, outs, h1, h2, fun k hk => ?_⟩
  obtain ⟨v, hv⟩ := h3 k hk
  let sh : Nat → E := fun r => I.sub (toE (v r)) (toE (v ((r + 1) % seeds.length)))
  have hsh : ∀ r, S.Valid (sh r) ∧ S.den (sh r) = S.den (toE (v r)) - S.den (toE (v ((r + 1) % seeds.length))) :=
    fun r => S.sub _ _ (hvalid _) (hvalid _)
  obtain ⟨z, hz1, hz2, hz3⟩ := S.sum ((List.range seeds.length).map sh)
    (by simpa using hne) (by intro a ha; rw [List.mem_map] at ha; obtain ⟨r, _, rfl⟩ := ha; exact (hsh r).1)
  refine ⟨sh, z, fun r hr => by rw [hv r hr]; rfl, hz1, hz2, ?_⟩
  rw [hz3, List.map_map, ← cyclic_sum_zero (fun r => S.den (toE (v r))) seeds.length]
  congr 1
  apply List.map_congr_left
  intro r _
  exact (hsh r).2

/-- C05: and with additive shares in the group of int64 tensors (or any other). -/
theorem C05_przs_sum_zero_additive (G : Gen Seed St Req Raw) (seeds : List Seed) (hne : seeds ≠ []) (es : List (Nat × Req))
    (reqs : List Req) (hes : Collective seeds.length es reqs) {T : Type} [AddCommGroup T] (toT : Raw → T) :
    ∃ sts outs, setupPrzs G seeds seeds.length seeds.length = .ok sts ∧ serve G sts es = .ok outs ∧
      ∀ k < reqs.length, ∃ sh : List T, sh.length = seeds.length ∧
        (∀ r < seeds.length, ((outsOf r outs)[k]?).map (przsAdditive toT) = sh[r]?) ∧ sh.sum = 0 := by
  obtain ⟨sts, outs, h1, h2, h3⟩ := przs_raw G seeds hne es reqs hes
  refine ⟨sts, outs, h1, h2, fun k hk => ?_⟩
  obtain ⟨v, hv⟩ := h3 k hk
  refine ⟨(List.range seeds.length).map fun r => toT (v r) - toT (v ((r + 1) % seeds.length)), by simp,
    fun r hr => ?_, cyclic_sum_zero (fun r => toT (v r)) seeds.length⟩
  rw [hv r hr]; simp [hr, przsAdditive]

/-- a toy generator, three parties, two collective calls served out of order -/
example : Collective 3 [(0, ()), (2, ()), (0, ()), (1, ()), (2, ()), (1, ())] [(), ()] := by
  refine ⟨by decide, ?_⟩
  decide

/-! ## C07 -/

theorem addRemote_ok {P T : Type} [AddCommGroup T] [PubEnc P T] (env : Env) (holder : Nat) (secret : P) (c : Config)
    (cs us : List Nat) (zs : List T) (cfg : Config) (ring : Nat) (hl1 : cs.length = us.length) (hl2 : zs.length = us.length)
    (hk : ∀ u ∈ us, ∃ p, env u = some p ∧ p.config = c ∧ ∃ t, getTypeFromRing p.ringSize = .ok t) :
    ∃ shs : List (ShareTensor T), addRemote env holder secret ((cs.zip (us.zip zs)).map fun (c, u, z) =>
        ((c, { tensor := z, sessionUuid := some u, config := cfg, ringSize := ring }) : Nat × ShareTensor T)) = .ok shs ∧
      shs.map (·.sessionUuid) = us.map some ∧
      (shs.map (·.tensor)).sum = zs.sum + (if holder ∈ cs then PubEnc.enc c secret else 0) := by
  induction us generalizing cs zs with
  | nil =>
    have h1 : cs = [] := by simpa using hl1
    have h2 : zs = [] := by simpa using hl2
    subst h1 h2
    exact ⟨[], rfl, rfl, by simp⟩
  | cons u us ih =>
    cases cs with
    | nil => simp at hl1
    | cons k cs =>
      cases zs with
      | nil => simp at hl2
      | cons z zs =>
        obtain ⟨p, hp, hc, hr⟩ := hk u (by simp)
        by_cases hkh : k = holder
        · refine ⟨⟨z + PubEnc.enc c secret, some u, p.config, p.ringSize⟩ ::
            ((cs.zip (us.zip zs)).map fun (_, u, z) => ⟨z, some u, cfg, ring⟩), ?_, ?_, ?_⟩
          · have := shareOp_pub env .add (⟨z, some u, cfg, ring⟩ : ShareTensor T) secret u p rfl hp hr
            simp only [MPCTensor.shareOp, LinOp.den, hc] at this
            simp only [List.zip_cons_cons, List.map_cons, addRemote, hkh, if_true, this, ok_bind, pure_eq_ok,
              List.map_map, hc]
            rfl
          · simp only [List.map_cons, List.map_map, List.cons.injEq, true_and]
            apply List.ext_getElem
            · simp at hl1 hl2; simp; omega
            · intro i h1 h2; simp
          · simp only [List.map_cons, List.map_map, List.sum_cons, hkh, List.mem_cons, true_or, if_true]
            have : (List.map ((fun x : ShareTensor T => x.tensor) ∘ fun x : Nat × Nat × T => ⟨x.2.2, some x.2.1, cfg, ring⟩)
                (cs.zip (us.zip zs))) = zs := by
              apply List.ext_getElem
              · simp at hl1 hl2; simp; omega
              · intro i h1 h2; simp
            rw [this]; abel
        · obtain ⟨shs, h1, h2, h3⟩ := ih cs zs (by simpa using hl1) (by simpa using hl2)
            (fun v hv => hk v (by simp [hv]))
          refine ⟨⟨z, some u, cfg, ring⟩ :: shs, ?_, by simp [h2], ?_⟩
          · simp only [List.zip_cons_cons, List.map_cons, addRemote, hkh, if_false]
            rw [h1, ok_bind, pure_eq_ok]
          · simp only [List.map_cons, List.sum_cons, h3, List.mem_cons, Ne.symm hkh, false_or]
            abel

/-- C07 (partial): for additive sharing, a secret held by one of the session's parties is shared correctly, whatever
zero shares (C05) were drawn.  What is missing: holders outside the session (`C07_outside_holder`), replicated
sharing (`C07_replicated_broken`). -/
theorem C07_remote_secret_partial {P T : Type} [AddCommGroup T] [PubEnc P T] (env : Env) (s : Session) (hs : s.Ready env)
    (holder : Nat) (hmem : holder ∈ s.parties) (secret : P) (zeros : List T) (hz : zeros.length = s.nrParties)
    (hsum : zeros.sum = 0) :
    ∃ x, ofRemote env s holder secret true zeros = .ok x ∧ x.WF env ∧ x.session = s ∧
      x.reconstruct = .ok (PubEnc.enc s.config secret) := by
  obtain ⟨shs, h1, h2, h3⟩ := addRemote_ok env holder secret s.config s.parties s.rankToUuid zeros
    { encoderPrecision := 0 } s.ringSize (by rw [hs.parties, hs.ranks]) (by rw [hz, hs.ranks])
    (fun u hu => by
      obtain ⟨p, hp1, hp2, hp3⟩ := hs.known u hu
      exact ⟨p, hp1, hp2, by rw [hp3]; exact hs.ring⟩)
  have hwf : MPCTensor.WF env ⟨s, shs⟩ := ⟨hs, h2⟩
  refine ⟨⟨s, shs⟩, ?_, hwf, rfl, ?_⟩
  · unfold ofRemote
    have : ¬ s.sessionPtrs.length = 0 := by simp [hs.ptrs]
    simp only [this, if_false, Bool.not_true, Bool.false_eq_true, h1, ok_bind]
    exact ofShares_ok _ _ hs.ptrs (WF.nonempty hwf)
  · rw [WF.reconstruct hwf]
    simp only [h3, hsum, hmem, if_true, zero_add]

example : exSession.Ready exEnv ∧ 11 ∈ exSession.parties ∧ ([5, 7, -12] : List I64).sum = 0 := ⟨exReady, by decide, by decide⟩

/-- C07 fails for the code: if the holder of the secret is not a party of the session, the call returns a tensor, and
it reconstructs to 0 whatever the secret is. -/
theorem C07_outside_holder {P T : Type} [AddCommGroup T] [PubEnc P T] (env : Env) (s : Session) (hs : s.Ready env)
    (holder : Nat) (hmem : holder ∉ s.parties) (secret : P) (zeros : List T) (hz : zeros.length = s.nrParties)
    (hsum : zeros.sum = 0) :
    ∃ x, ofRemote env s holder secret true zeros = .ok x ∧ x.reconstruct = .ok 0 := by
  obtain ⟨shs, h1, h2, h3⟩ := addRemote_ok env holder secret s.config s.parties s.rankToUuid zeros
    { encoderPrecision := 0 } s.ringSize (by rw [hs.parties, hs.ranks]) (by rw [hz, hs.ranks])
    (fun u hu => by
      obtain ⟨p, hp1, hp2, hp3⟩ := hs.known u hu
      exact ⟨p, hp1, hp2, by rw [hp3]; exact hs.ring⟩)
  have hwf : MPCTensor.WF env ⟨s, shs⟩ := ⟨hs, h2⟩
  refine ⟨⟨s, shs⟩, ?_, ?_⟩
  · unfold ofRemote
    have : ¬ s.sessionPtrs.length = 0 := by simp [hs.ptrs]
    simp only [this, if_false, Bool.not_true, Bool.false_eq_true, h1, ok_bind]
    exact ofShares_ok _ _ hs.ptrs (WF.nonempty hwf)
  · rw [WF.reconstruct hwf]
    simp only [h3, hsum, hmem, if_false, zero_add]

/-- C07: without a shape the call is refused. -/
theorem C07_shape_required {P T : Type} [AddCommGroup T] [PubEnc P T] (env : Env) (s : Session) (holder : Nat)
    (secret : P) (zeros : List T) : ofRemote env s holder secret false zeros = .error .valueError := by
  unfold ofRemote
  by_cases h : s.sessionPtrs.length = 0 <;> simp [h, throw_eq_error, error_bind]

end SyMPC
