import Verif.Part.SelectRun
/-!
# The invariant of the selection, for one part
-/
namespace Verif.Part
open Verif.Agi

/-- what does not change during the selections of a part: `B` are the edges of the queue, `top` bounds the sizes of the
cavities sent, `M` their weight -/
structure SelCtx (ord : HashOrd) (g : Graph) (vs known : List Gid) (hnd : Gid → Handle) (EH : List Handle)
    (pinsOf : Handle → List Gid) (own : Gid → Part) (inc : Gid → Nat → List Handle) (dims : List Int)
    (wt : Gid → Rat) (res : Handle → Part → Bool) (ew : Handle → Rat) (targets : Cont Rat) (dim : Int)
    (B : List Handle) (top : Nat) (M : Rat) : Prop where
  ordOk : ord.Ok
  sel : SelFacts g vs known hnd EH pinsOf own inc
  facts : Facts g vs hnd dims wt inc res ew
  isDim : dim ∈ dims
  zero : (0 : Int) ∈ dims
  vnn : ∀ v ∈ vs, 0 ≤ wt v
  enn : ∀ e, 0 ≤ ew e
  keys : ∀ d, targets.has d = true → 0 ≤ d
  edges : ∀ e ∈ B, e ∈ EH
  heavy : ∀ e ∈ B, ∀ c : List Gid, c.Nodup → (∀ v ∈ c, v ∈ vs ∧ v ∈ pinsOf e) → c.length < top → ∀ d, 0 ≤ d →
    load wt inc res ew dim d c ≤ M
  small : ∀ e ∈ B, ∀ c : List Gid, c.Nodup → (∀ v ∈ c, v ∈ vs ∧ v ∈ pinsOf e) → c.length < 100

/-- the state of the selection: the sweep goes over `C` and has kept `N`; `l` are the planned vertices and `f` their
destinations -/
structure SelInv (vs : List Gid) (hnd : Gid → Handle) (pinsOf : Handle → List Gid) (wt : Gid → Rat)
    (targets : Cont Rat) (dim : Int) (B : List Handle) (M : Rat) (C N : List Handle) (l : List Gid)
    (f : Gid → Option Part) (s : Sel) : Prop where
  q : QRep s.q B.length C N
  room : C.length ≤ B.length
  cur : ∀ e ∈ C, e ∈ B
  next : ∀ e ∈ N, e ∈ B
  cavs : ∀ e ∈ B, ∃ c : List Gid, s.cavs e = c.map hnd ∧ c.Nodup ∧ ∀ v ∈ c, v ∈ vs ∧ v ∈ pinsOf e
  plan : PlanRep vs s.plan l f
  dest : ∀ v d, f v = some d → targets.has d = true ∧ 0 < targets.get d ∧ ∃ e ∈ B, v ∈ pinsOf e
  sent : ∀ d, 0 ≤ s.sending d ∧ s.sending d ≤ max 0 (targets.get d) + M
  total : 0 ≤ s.planW ∧ s.planW ≤ max 0 targets.total + M
  exact : dim = -1 → s.planW = (l.map wt).sum

section
variable {ord : HashOrd} {g : Graph} {vs known : List Gid} {hnd : Gid → Handle} {EH : List Handle}
  {pinsOf : Handle → List Gid}
  {own : Gid → Part} {inc : Gid → Nat → List Handle} {dims : List Int} {wt : Gid → Rat} {res : Handle → Part → Bool}
  {ew : Handle → Rat} {targets : Cont Rat} {dim : Int} {B : List Handle} {top : Nat} {M : Rat}

theorem trySend_inv (hx : SelCtx ord g vs known hnd EH pinsOf own inc dims wt res ew targets dim B top M)
    (limit : Rat) {C N : List Handle} {l : List Gid} {f : Gid → Option Part} {s : Sel}
    (h : SelInv vs hnd pinsOf wt targets dim B M C N l f s) (hle : s.planW ≤ targets.total) {e : Handle} (he : e ∈ B)
    {c : List Gid} (hcn : c.Nodup) (hc : ∀ v ∈ c, v ∈ vs ∧ v ∈ pinsOf e) (hct : c.length < top) :
    ∀ peers : List Part, ∃ (s' : Sel) (b : Bool) (l' : List Gid) (f' : Gid → Option Part),
      trySend ord g limit targets dim (c.map hnd) s peers = .ok (s', b) ∧
      SelInv vs hnd pinsOf wt targets dim B M C N l' f' s' ∧ s'.q = s.q ∧ s'.cavs = s.cavs ∧ l <+: l' ∧
      (b = true → ∀ v ∈ c, v ∈ l') ∧
      (b = false → s' = s ∧ (limit ≤ 0 → ∀ d ∈ peers, ¬ (targets.has d = true ∧ s.sending d < targets.get d)))
  | [] => ⟨s, false, l, f, rfl, h, rfl, rfl, List.prefix_refl l, by simp, fun _ => ⟨rfl, by simp⟩⟩
  | peer :: peers => by
    unfold trySend
    obtain ⟨b, e1, hb, hb'⟩ := peerOk_ok hx.ordOk hx.facts hx.zero limit targets s.sending peer (fun v hv => (hc v hv).1) hcn
    rw [e1, Outcome.bind_ok]
    cases b with
    | false =>
      rw [if_neg (by simp)]
      obtain ⟨s', b', l', f', r1, r2, r3, r4, r5, r6, r7⟩ := trySend_inv hx limit h hle he hcn hc hct peers
      refine ⟨s', b', l', f', r1, r2, r3, r4, r5, r6, fun hbf => ⟨(r7 hbf).1, fun hl d hd => ?_⟩⟩
      rcases List.mem_cons.mp hd with rfl | hd
      · rintro ⟨q1, q2⟩
        exact absurd (hb' hl q1 q2) (by simp)
      · exact (r7 hbf).2 hl d hd
    | true =>
      rw [if_pos rfl]
      obtain ⟨h1, h2⟩ := hb rfl
      have hpe : peer ≠ -1 := by have := hx.keys peer h1; omega
      obtain ⟨plan', new, e2, hp, hn⟩ := addCavity_eq hx.ordOk hx.sel hx.facts hx.isDim hpe h.plan
        (fun v hv => (hc v hv).1) hcn
      have hnsub : ∀ v ∈ new, v ∈ c := fun v hv => (List.mem_filter.mp (hn.subset hv)).1
      have hnn : new.Nodup := hn.symm.nodup (hcn.filter _)
      have hl : load wt inc res ew dim peer new ≤ M :=
        le_trans (load_subset hx.vnn hx.enn dim peer (fun v hv => (hc v hv).1) hnn hnsub)
          (hx.heavy e he c hcn hc hct peer (hx.keys peer h1))
      have hl0 : 0 ≤ load wt inc res ew dim peer new :=
        load_nonneg hx.vnn hx.enn dim peer (fun v hv => (hc v (hnsub v hv)).1)
      rw [e2, Outcome.bind_ok]
      refine ⟨_, true, l ++ new, _, rfl, ⟨h.q, h.room, h.cur, h.next, h.cavs, hp, ?_, ?_, ?_, ?_⟩, rfl, rfl, List.prefix_append _ _,
        fun _ v hv => (hp.mem v).mpr ⟨(hc v hv).1, by simp [hv]⟩, by simp⟩
      · intro v d hvd
        split at hvd
        · rename_i hvc
          obtain rfl : peer = d := by simpa using hvd
          exact ⟨h1, lt_of_le_of_lt (h.sent peer).1 h2, e, he, (hc v hvc).2⟩
        · exact h.dest v d hvd
      · intro d
        unfold setAt
        dsimp only
        split
        · rename_i hd
          subst hd
          refine ⟨add_nonneg (h.sent d).1 hl0, ?_⟩
          have := le_max_right 0 (targets.get d)
          linarith
        · exact h.sent d
      · dsimp only
        refine ⟨add_nonneg h.total.1 hl0, ?_⟩
        have := le_max_right 0 targets.total
        linarith
      · intro hd
        dsimp only
        rw [h.exact hd, List.map_append, List.sum_append]
        unfold load
        rw [if_pos hd]

theorem SelInv.setCav (h : SelInv vs hnd pinsOf wt targets dim B M C N l f s) (e : Handle) :
    SelInv vs hnd pinsOf wt targets dim B M C N l f { s with cavs := Verif.Part.setCav s.cavs e [] } := by
  refine ⟨h.q, h.room, h.cur, h.next, ?_, h.plan, h.dest, h.sent, h.total, h.exact⟩
  intro x hx
  dsimp only
  unfold Verif.Part.setCav
  split
  · exact ⟨[], rfl, List.nodup_nil, by simp⟩
  · exact h.cavs x hx

theorem SelInv.addQ (h : SelInv vs hnd pinsOf wt targets dim B M C N l f s) {e : Handle} (he : e ∈ B)
    (hN : N.length < B.length) : ∃ q, s.q.add e = .ok q ∧
      SelInv vs hnd pinsOf wt targets dim B M C (N ++ [e]) l f { s with q := q } := by
  obtain ⟨q, e1, hq⟩ := h.q.add e hN
  refine ⟨q, e1, hq, h.room, h.cur, ?_, h.cavs, h.plan, h.dest, h.sent, h.total, h.exact⟩
  intro x hx
  rcases List.mem_append.mp hx with hx | hx
  · exact h.next x hx
  · rw [List.mem_singleton.mp hx]; exact he

theorem selectFrom_inv (hx : SelCtx ord g vs known hnd EH pinsOf own inc dims wt res ew targets dim B top M)
    (limit : Rat) {cavSize : Nat} (hcs : cavSize ≤ top) {C : List Handle} :
    ∀ (n i : Nat) (N : List Handle) (l : List Gid) (f : Gid → Option Part) (s : Sel),
    SelInv vs hnd pinsOf wt targets dim B M C N l f s → N.length ≤ i → i + n = C.length →
    ∃ (s' : Sel) (N' : List Handle) (l' : List Gid) (f' : Gid → Option Part),
      selectFrom ord g limit targets dim cavSize n i s = .ok s' ∧
      SelInv vs hnd pinsOf wt targets dim B M C N' l' f' s' ∧ N'.length ≤ C.length ∧ l <+: l'
  | 0, i, N, l, f, s, h, hN, hi => ⟨s, N, l, f, rfl, h, by omega, List.prefix_refl l⟩
  | n + 1, i, N, l, f, s, h, hN, hi => by
    unfold selectFrom
    split
    · exact ⟨s, N, l, f, rfl, h, by omega, List.prefix_refl l⟩
    rename_i htot
    have hic : i < C.length := by omega
    rw [h.q.get hic, Outcome.bind_ok]
    have heB : C[i] ∈ B := h.cur _ (List.getElem_mem hic)
    obtain ⟨c, ec, hcn, hc⟩ := h.cavs _ heB
    obtain ⟨peers, e1, -⟩ := cavityPeers_eq hx.ordOk hx.sel h.plan (fun v hv => (hc v hv).1) hcn
    rw [ec, e1, Outcome.bind_ok]
    obtain ⟨s1, b, l1, f1, e2, h1, hpre⟩ : ∃ (s' : Sel) (b : Bool) (l' : List Gid) (f' : Gid → Option Part),
      trySend ord g limit targets dim (c.map hnd) s (if (c.map hnd).length < cavSize then peers else []) = .ok (s', b) ∧
      SelInv vs hnd pinsOf wt targets dim B M C N l' f' s' ∧ l <+: l' := by
      split
      · rename_i hlen
        rw [List.length_map] at hlen
        obtain ⟨s', b', l', f', r1, r2, -, -, r5, -⟩ :=
          trySend_inv hx limit h (not_lt.mp htot) heB hcn hc (by omega) peers
        exact ⟨s', b', l', f', r1, r2, r5⟩
      · exact ⟨s, false, l, f, rfl, h, List.prefix_refl l⟩
    rw [e2, Outcome.bind_ok]
    dsimp only
    cases b with
    | true =>
      rw [if_pos rfl]
      obtain ⟨s2, N2, l2, f2, r1, r2, r3, r4⟩ :=
        selectFrom_inv hx limit hcs n (i + 1) N l1 f1 _ (h1.setCav C[i]) (by omega) (by omega)
      exact ⟨s2, N2, l2, f2, r1, r2, r3, hpre.trans r4⟩
    | false =>
      rw [if_neg (by simp)]
      obtain ⟨q, e3, h3⟩ := h1.addQ heB (by have := h.room; omega)
      rw [e3, Outcome.bind_ok]
      obtain ⟨s2, N2, l2, f2, r1, r2, r3, r4⟩ :=
        selectFrom_inv hx limit hcs n (i + 1) _ l1 f1 _ h3 (by simp; omega) (by omega)
      exact ⟨s2, N2, l2, f2, r1, r2, r3, hpre.trans r4⟩

theorem select_inv (hx : SelCtx ord g vs known hnd EH pinsOf own inc dims wt res ew targets dim B top M)
    (limit : Rat) {cavSize : Nat} (hcs : cavSize ≤ top) {C N : List Handle} {l : List Gid} {f : Gid → Option Part}
    {s : Sel} (h : SelInv vs hnd pinsOf wt targets dim B M C N l f s) (hN : N.length ≤ B.length) :
    ∃ (s' : Sel) (N' : List Handle) (l' : List Gid) (f' : Gid → Option Part),
      select ord g limit targets dim s cavSize = .ok s' ∧
      SelInv vs hnd pinsOf wt targets dim B M N N' l' f' s' ∧ N'.length ≤ B.length ∧ l <+: l' := by
  have hq := h.q.start
  have h0 : SelInv vs hnd pinsOf wt targets dim B M N [] l f { s with q := s.q.start } :=
    ⟨hq, hN, h.next, by simp, h.cavs, h.plan, h.dest, h.sent, h.total, h.exact⟩
  obtain ⟨s1, N1, l1, f1, e1, h1, hN1, hpre⟩ := selectFrom_inv hx limit hcs s.q.start.size 0 [] l f _ h0 (by simp)
    (by rw [hq.size]; omega)
  unfold select
  dsimp only
  rw [e1, Outcome.bind_ok]
  refine ⟨_, N1, l1, f1, rfl, ⟨h1.q, h1.room, h1.cur, h1.next, ?_, h1.plan, h1.dest, h1.sent, h1.total, h1.exact⟩, by omega, hpre⟩
  intro e he
  obtain ⟨c, ec, hcn, hc⟩ := h1.cavs e he
  dsimp only
  unfold updateCavities
  rw [ec, List.filter_map]
  exact ⟨_, rfl, hcn.filter _, fun v hv => hc v (List.mem_filter.mp hv).1⟩

theorem newSelector_inv (hx : SelCtx ord g vs known hnd EH pinsOf own inc dims wt res ew targets dim B top M)
    (hM : 0 ≤ M) {q : Queue} (hq : QRep q B.length [] B) {plan : Plan} (hp : PlanRep vs plan [] (fun _ => none)) :
    ∃ s, newSelector g q plan = .ok s ∧ SelInv vs hnd pinsOf wt targets dim B M B B [] (fun _ => none) s ∧
      (∀ e ∈ B, ∃ c : List Gid, s.cavs e = c.map hnd ∧ c.Nodup ∧ ∀ v, v ∈ c ↔ v ∈ vs ∧ v ∈ pinsOf e) := by
  unfold newSelector
  have hqs := hq.start
  obtain ⟨x, e1, hxq, hxc⟩ := rangeM_inv (cavityStep g) (fun k (x : Queue × (Handle → List Handle)) =>
      QRep x.1 B.length B (B.take k) ∧ ∀ e ∈ B.take k, ∃ c : List Gid, x.2 e = c.map hnd ∧ c.Nodup ∧
        ∀ v, v ∈ c ↔ v ∈ vs ∧ v ∈ pinsOf e) q.start.size
    (by
      rintro k ⟨q', cv⟩ hk ⟨h1, h2⟩
      rw [hqs.size] at hk
      unfold cavityStep
      dsimp only at h1 h2 ⊢
      rw [h1.get hk, Outcome.bind_ok]
      have hkB := List.getElem_mem hk
      obtain ⟨c, e2, hcn, hc⟩ := getCavity_eq hx.sel (hx.edges _ hkB)
      have hc' : ∀ v, v ∈ c ↔ v ∈ vs ∧ v ∈ pinsOf B[k] := fun v => by rw [hc]; exact And.comm
      obtain ⟨q2, e3, hq2⟩ := h1.add B[k] (by simp; omega)
      rw [e2, Outcome.bind_ok, e3, Outcome.bind_ok, List.length_map,
        if_pos (hx.small _ hkB c hcn (fun v hv => (hc' v).mp hv))]
      refine ⟨_, rfl, ?_, ?_⟩
      · have : B.take (k + 1) = B.take k ++ [B[k]] := by rw [List.take_add_one, List.getElem?_eq_getElem hk]; rfl
        rw [this]; exact hq2
      · intro e he
        dsimp only
        unfold Verif.Part.setCav
        split
        · rename_i hee
          subst hee
          exact ⟨c, rfl, hcn, hc'⟩
        · rename_i hee
          apply h2
          have : B.take (k + 1) = B.take k ++ [B[k]] := by rw [List.take_add_one, List.getElem?_eq_getElem hk]; rfl
          rw [this] at he
          rcases List.mem_append.mp he with he | he
          · exact he
          · exact absurd (List.mem_singleton.mp he) hee)
    (q.start, fun _ => []) ⟨by simpa using hqs, by simp⟩
  rw [e1, Outcome.bind_ok]
  rw [hqs.size, List.take_length] at hxq hxc
  refine ⟨_, rfl, ⟨hxq, le_refl _, fun e he => he, fun e he => he, ?_, hp, ?_, ?_, ?_, ?_⟩, hxc⟩
  · intro e he
    obtain ⟨c, a, b, d⟩ := hxc e he
    exact ⟨c, a, b, fun v hv => (d v).mp hv⟩
  · intro v d hvd; simp at hvd
  · intro d
    refine ⟨le_refl _, ?_⟩
    have := le_max_left 0 (targets.get d)
    dsimp only
    linarith
  · refine ⟨le_refl _, ?_⟩
    have := le_max_left 0 targets.total
    dsimp only
    linarith
  · intro _; simp

theorem selects_inv (hx : SelCtx ord g vs known hnd EH pinsOf own inc dims wt res ew targets dim B top M)
    (limit : Rat) : ∀ (sizes : List Nat) (C N : List Handle) (l : List Gid) (f : Gid → Option Part) (s : Sel),
    (∀ k ∈ sizes, k ≤ top) → SelInv vs hnd pinsOf wt targets dim B M C N l f s → N.length ≤ B.length →
    ∃ (s' : Sel) (C' N' : List Handle) (l' : List Gid) (f' : Gid → Option Part),
      sizes.foldlM (select ord g limit targets dim) s = .ok s' ∧
      SelInv vs hnd pinsOf wt targets dim B M C' N' l' f' s' ∧ N'.length ≤ B.length ∧ l <+: l'
  | [], C, N, l, f, s, _, h, hN => ⟨s, C, N, l, f, rfl, h, hN, List.prefix_refl l⟩
  | k :: sizes, C, N, l, f, s, hk, h, hN => by
    obtain ⟨s1, N1, l1, f1, e1, h1, hN1, hp1⟩ := select_inv hx limit (hk k (by simp)) h hN
    obtain ⟨s2, C2, N2, l2, f2, e2, h2, hN2, hp2⟩ := selects_inv hx limit sizes N N1 l1 f1 s1
      (fun j hj => hk j (by simp [hj])) h1 hN1
    refine ⟨s2, C2, N2, l2, f2, ?_, h2, hN2, hp1.trans hp2⟩
    rw [List.foldlM_cons, e1]
    exact e2

/-! ## progress -/

/-- nothing has been sent yet: `N` is what has been put back -/
structure Idle (B : List Handle) (cv : Handle → List Handle) (N : List Handle) (s : Sel) : Prop where
  queue : QRep s.q B.length B N
  cavs : s.cavs = cv
  sending : ∀ d, s.sending d = 0
  planW : s.planW = 0

/-- the edge has a cavity with fewer than `k` vertices, and all the parts that the cavity joins are wanting parts -/
def Ready (me : Part) (vs : List Gid) (pinsOf : Handle → List Gid) (own : Gid → Part)
    (inc : Gid → Nat → List Handle) (targets : Cont Rat) (k : Nat) (e : Handle) : Prop :=
  ∀ c : List Gid, c.Nodup → (∀ v, v ∈ c ↔ v ∈ vs ∧ v ∈ pinsOf e) → c.length < k ∧ c ≠ [] ∧
    (∃ p, 0 < surface me own (fun _ => none) pinsOf inc c p) ∧
    ∀ p, 0 < surface me own (fun _ => none) pinsOf inc c p → targets.has p = true ∧ 0 < targets.get p

theorem selectFrom_idle (hx : SelCtx ord g vs known hnd EH pinsOf own inc dims wt res ew targets dim B top M)
    {limit : Rat} (hlim : limit ≤ 0) (htot : 0 ≤ targets.total) {cv : Handle → List Handle}
    (hcv : ∀ e ∈ B, ∃ c : List Gid, cv e = c.map hnd ∧ c.Nodup ∧ ∀ v, v ∈ c ↔ v ∈ vs ∧ v ∈ pinsOf e)
    {cavSize : Nat} (hcs : cavSize ≤ top) :
    ∀ (n i : Nat) (s : Sel), SelInv vs hnd pinsOf wt targets dim B M B (B.take i) [] (fun _ => none) s →
      Idle B cv (B.take i) s → i + n = B.length →
      ∃ (s' : Sel) (N' : List Handle) (l' : List Gid) (f' : Gid → Option Part),
        selectFrom ord g limit targets dim cavSize n i s = .ok s' ∧
        SelInv vs hnd pinsOf wt targets dim B M B N' l' f' s' ∧ N'.length ≤ B.length ∧
        (l' ≠ [] ∨ (N' = B ∧ l' = [] ∧ f' = (fun _ => none) ∧ Idle B cv B s' ∧
          ∀ j (hj : j < B.length), i ≤ j → ¬ Ready g.self vs pinsOf own inc targets cavSize B[j]))
  | 0, i, s, h, hid, hi => by
    have hB : B.take i = B := by rw [List.take_of_length_le (by omega)]
    rw [hB] at h hid
    exact ⟨s, B, [], fun _ => none, rfl, h, le_refl _, .inr ⟨rfl, rfl, rfl, hid, fun j hj hij => by omega⟩⟩
  | n + 1, i, s, h, hid, hi => by
    unfold selectFrom
    rw [if_neg (by rw [hid.planW]; exact not_lt.mpr htot)]
    have hic : i < B.length := by omega
    have heB := List.getElem_mem hic
    rw [h.q.get hic, Outcome.bind_ok]
    obtain ⟨c, ec, hcn, hc⟩ := hcv _ heB
    have hc' : ∀ v ∈ c, v ∈ vs ∧ v ∈ pinsOf B[i] := fun v hv => (hc v).mp hv
    obtain ⟨peers, e1, -, hpp, hpe⟩ := cavityPeers_eq hx.ordOk hx.sel h.plan (fun v hv => (hc' v hv).1) hcn
    rw [hid.cavs, ec, e1, Outcome.bind_ok]
    have htake : (B.take i).length = i := by simp; omega
    obtain ⟨s1, b, l1, f1, e2, h1, hb1, hb2⟩ : ∃ (s' : Sel) (b : Bool) (l' : List Gid) (f' : Gid → Option Part),
      trySend ord g limit targets dim (c.map hnd) s (if (c.map hnd).length < cavSize then peers else []) = .ok (s', b) ∧
      SelInv vs hnd pinsOf wt targets dim B M B (B.take i) l' f' s' ∧ (b = true → l' ≠ []) ∧
      (b = false → s' = s ∧ ¬ Ready g.self vs pinsOf own inc targets cavSize B[i]) := by
      split
      · rename_i hlen
        rw [List.length_map] at hlen
        obtain ⟨s', b', l', f', r1, r2, -, -, r5, r6, r7⟩ :=
          trySend_inv hx limit h (by rw [hid.planW]; exact htot) heB hcn hc' (by omega) peers
        refine ⟨s', b', l', f', r1, r2, ?_, ?_⟩
        · rintro rfl hl'
          have hce : c = [] := by
            apply List.eq_nil_iff_forall_not_mem.mpr
            intro v hv
            have := r6 rfl v hv
            rw [hl'] at this
            simp at this
          subst hce
          have hpn : peers = [] := by
            apply List.eq_nil_iff_forall_not_mem.mpr
            intro d hd
            have := hpp d hd
            simp [surface, cavityEdges] at this
          subst hpn
          rw [trySend] at r1
          simp at r1
        · intro hbf
          refine ⟨(r7 hbf).1, fun hr => ?_⟩
          obtain ⟨-, -, ⟨p, hp⟩, hall⟩ := hr c hcn hc
          obtain ⟨d, hd, -⟩ := hpe p hp
          have := (r7 hbf).2 hlim d hd
          rw [hid.sending] at this
          exact this (hall d (hpp d hd))
      · rename_i hlen
        rw [List.length_map] at hlen
        refine ⟨s, false, [], fun _ => none, rfl, h, by simp, fun _ => ⟨rfl, fun hr => ?_⟩⟩
        exact hlen (hr c hcn hc).1
    rw [e2, Outcome.bind_ok]
    dsimp only
    cases b with
    | true =>
      rw [if_pos rfl]
      obtain ⟨s2, N2, l2, f2, r1, r2, r3, r4⟩ :=
        selectFrom_inv hx limit hcs n (i + 1) _ l1 f1 _ (h1.setCav B[i]) (by omega) (by omega)
      refine ⟨s2, N2, l2, f2, r1, r2, r3, .inl ?_⟩
      rintro rfl
      exact hb1 rfl (List.prefix_nil.mp r4)
    | false =>
      rw [if_neg (by simp)]
      obtain ⟨rfl, hnr⟩ := hb2 rfl
      obtain ⟨q, e3, h3⟩ := h.addQ heB (by omega)
      have hta : B.take i ++ [B[i]] = B.take (i + 1) := by
        rw [List.take_add_one, List.getElem?_eq_getElem hic]; rfl
      rw [hta] at h3
      rw [e3, Outcome.bind_ok]
      obtain ⟨s2, N2, l2, f2, r1, r2, r3, r4⟩ := selectFrom_idle hx hlim htot hcv hcs n (i + 1) _ h3
        ⟨h3.q, hid.cavs, hid.sending, hid.planW⟩ (by omega)
      refine ⟨s2, N2, l2, f2, r1, r2, r3, ?_⟩
      rcases r4 with r4 | ⟨q1, q2, q3, q4, q5⟩
      · exact .inl r4
      · refine .inr ⟨q1, q2, q3, q4, ?_⟩
        intro j hj hij
        by_cases hji : j = i
        · subst hji; exact hnr
        · exact q5 j hj (by omega)

theorem selects_progress (hx : SelCtx ord g vs known hnd EH pinsOf own inc dims wt res ew targets dim B top M)
    {limit : Rat} (hlim : limit ≤ 0) (htot : 0 ≤ targets.total) {cv : Handle → List Handle}
    (hcv : ∀ e ∈ B, ∃ c : List Gid, cv e = c.map hnd ∧ c.Nodup ∧ ∀ v, v ∈ c ↔ v ∈ vs ∧ v ∈ pinsOf e)
    {e : Handle} (he : e ∈ B) : ∀ (sizes : List Nat) (C : List Handle) (s : Sel), (∀ k ∈ sizes, k ≤ top) →
    (∃ k ∈ sizes, Ready g.self vs pinsOf own inc targets k e) →
    SelInv vs hnd pinsOf wt targets dim B M C B [] (fun _ => none) s →
    s.cavs = cv → (∀ d, s.sending d = 0) → s.planW = 0 →
    ∃ (s' : Sel) (C' N' : List Handle) (l' : List Gid) (f' : Gid → Option Part),
      sizes.foldlM (select ord g limit targets dim) s = .ok s' ∧
      SelInv vs hnd pinsOf wt targets dim B M C' N' l' f' s' ∧ l' ≠ []
  | [], _, _, _, hk, _, _, _, _ => by obtain ⟨k, hk, -⟩ := hk; simp at hk
  | k :: sizes, C, s, htop, hready, h, hcav, hsend, hpw => by
    have hq := h.q.start
    have h0 : SelInv vs hnd pinsOf wt targets dim B M B (B.take 0) [] (fun _ => none) { s with q := s.q.start } :=
      ⟨hq, le_refl _, fun e he => he, by simp, h.cavs, h.plan, h.dest, h.sent, h.total, h.exact⟩
    obtain ⟨s1, N1, l1, f1, e1, h1, hN1, hor⟩ := selectFrom_idle hx hlim htot hcv (htop k (by simp)) s.q.start.size 0 _ h0
      ⟨h0.q, hcav, hsend, hpw⟩ (by rw [hq.size]; omega)
    have hsel : select ord g limit targets dim s k = .ok { s1 with cavs := updateCavities s1.plan s1.cavs } := by
      unfold select
      dsimp only
      rw [e1, Outcome.bind_ok]
      rfl
    have h2 : SelInv vs hnd pinsOf wt targets dim B M B N1 l1 f1 { s1 with cavs := updateCavities s1.plan s1.cavs } := by
      refine ⟨h1.q, h1.room, h1.cur, h1.next, ?_, h1.plan, h1.dest, h1.sent, h1.total, h1.exact⟩
      intro e he
      obtain ⟨c, ec, hcn, hc⟩ := h1.cavs e he
      dsimp only
      unfold updateCavities
      rw [ec, List.filter_map]
      exact ⟨_, rfl, hcn.filter _, fun v hv => hc v (List.mem_filter.mp hv).1⟩
    have hfold : (k :: sizes).foldlM (select ord g limit targets dim) s =
        sizes.foldlM (select ord g limit targets dim) { s1 with cavs := updateCavities s1.plan s1.cavs } := by
      rw [List.foldlM_cons, hsel]
      rfl
    rw [hfold]
    rcases hor with hne | ⟨hNe, hl1, hf1, hid, hnr⟩
    · obtain ⟨s2, C2, N2, l2, f2, e2, h3, -, hp⟩ := selects_inv hx limit sizes B N1 l1 f1 _
        (fun j hj => htop j (by simp [hj])) h2 hN1
      refine ⟨s2, C2, N2, l2, f2, e2, h3, ?_⟩
      rintro rfl
      exact hne (List.prefix_nil.mp hp)
    · rw [hNe, hl1, hf1] at h2
      have hcav' : updateCavities s1.plan s1.cavs = cv := by
        funext e
        unfold updateCavities
        rw [hid.cavs, h1.plan.sending, hl1]
        simp
      refine selects_progress hx hlim htot hcv he sizes B _ (fun j hj => htop j (by simp [hj])) ?_ h2 hcav'
        hid.sending hid.planW
      obtain ⟨j, hj, hr⟩ := hready
      rcases List.mem_cons.mp hj with rfl | hj
      · exfalso
        obtain ⟨a, ha, rfl⟩ := List.mem_iff_getElem.mp he
        exact hnr a ha (by omega) hr
      · exact ⟨j, hj, hr⟩

end
end Verif.Part
