import Verif.Pcu.SwitchInv
import Mathlib.Data.Nat.Find
/-!
# C81: changing communicators

The communicators are those of SwitchModel; how much `MPI_Comm_dup` and `MPI_Comm_free` synchronise is arbitrary (`dupWaits`, `freeWaits`).
Phases and collectives are those of C78, message by message.
-/
namespace Verif.Pcu.Switch
open Verif.Pcu.Whole (Script JobRuns OpsOk starts Finished)

variable {α V : Type} {W : Job V} {G S n : Nat}

/-! ## on every communicator: as if there were no other -/

/-- What happens on the communicator of `s` is an execution of its program on that communicator alone. -/
theorem c81_alone (hL : Legal W G S) (hO : Once W G) {st : State α V} (h : Reach W n st) {s : Nat} (hs : s < S) :
    ∃ k, Whole.Reach (W.segs s).calls (W.segs s).comm (W.segs s).size (W.segs s).len (W.segs s).junk k (st.seg s) :=
  (inv_reach hL hO h).reach s hs

/-- When the receive loop of phase `p` has ended on rank `r` of `s`, it has returned precisely the messages packed for this rank in
that phase on that communicator, each once. -/
theorem c81_exact (hL : Legal W G S) (hO : Once W G) {st : State α V} (h : Reach W n st) {s r p : Nat} (hs : s < S)
    (hr : r < (W.segs s).size) (he : Phase.Ended (st.seg s).user r p) :
    (Phase.received (st.seg s).user r p).Nodup ∧
    ∀ m, m ∈ Phase.received (st.seg s).user r p ↔ (m.dst = r ∧ m.phase = p ∧ Phase.Owed (W.segs s).size (st.seg s).user m) := by
  obtain ⟨k, hk⟩ := c81_alone hL hO h hs
  exact Whole.c78_exact (hL.script s hs) (hL.runs s hs) hk hr he

/-- A collective has returned the combination of what the processes of that communicator contributed to that call, no other. -/
theorem c81_results (hL : Legal W G S) (hO : Once W G) {st : State α V} (h : Reach W n st) {s : Nat} (hs : s < S)
    (ho : OpsOk (W.segs s).calls (W.segs s).len) (r k : Nat) (hr : r < (W.segs s).size) (hk : k < ((st.seg s).coll r).got.length) :
    ∃ v : Nat → V, (∀ q, q < (W.segs s).size → (((W.segs s).calls k).what = .scan → q ≤ r) → ((st.seg s).gave q)[k]? = some (v q)) ∧
      ((st.seg s).coll r).got[k]? = some (Seq.result ((W.segs s).calls k).what ((W.segs s).calls k).op v (W.segs s).size r) := by
  obtain ⟨j, hj⟩ := c81_alone hL hO h hs
  exact Whole.c78_results (hL.script s hs) ho (hL.runs s hs) hj r k hr hk

/-! ## when processes come and go -/

/-- A process that is not on the communicator yet has contributed nothing, sent nothing and packed nothing there. -/
theorem c81_before (hL : Legal W G S) (hO : Once W G) {st : State α V} (h : Reach W n st) {s r : Nat} (hs : s < S)
    (hr : r < (W.segs s).size) (hn : ¬ Entered W st ((W.segs s).who r) s) :
    (st.seg s).gave r = [] ∧ ((st.seg s).coll r).entered = [] ∧ ((st.seg s).coll r).got = [] ∧
      (∀ m ∈ (st.seg s).user.net, m.src ≠ r) ∧ ∀ k ∈ (st.seg s).user.packs, k.src ≠ r := by
  have hI := inv_reach hL hO h
  obtain ⟨h1, h2, h3⟩ := hI.fresh s hs r hr hn
  obtain ⟨j, hj⟩ := hI.reach s hs
  obtain ⟨n', hn'⟩ := Whole.phase_reach (hL.script s hs) (hL.runs s hs) hj
  have hP := Phase.inv_reach hn'
  refine ⟨h2, by rw [h1]; rfl, by rw [h1]; rfl, ?_, ?_⟩
  · intro m hm he
    have := (hP.flight m hm).1
    rw [he, h3] at this
    cases this
  · intro k hk he
    have h5 := (hP.range k hk).1
    have := hP.packs k hk
    rw [he, h3] at this
    rcases this with this | ⟨this, -⟩
    · exact absurd this (Nat.not_lt_zero _)
    · have h0 : k.phase = 0 := this
      omega

/-- When an allreduce (or a barrier) has returned on one rank, every process of the communicator has arrived on it. -/
theorem c81_meet (hL : Legal W G S) (hO : Once W G) {st : State α V} (h : Reach W n st) {s r k : Nat} (hs : s < S)
    (hr : r < (W.segs s).size) (hk : k < ((st.seg s).coll r).got.length) (hw : ((W.segs s).calls k).what = .allreduce) :
    ∀ q, q < (W.segs s).size → Entered W st ((W.segs s).who q) s := by
  intro q hq
  obtain ⟨j, hj⟩ := c81_alone hL hO h hs
  have := Whole.c78_barrier (hL.script s hs) (hL.runs s hs) hj r k hr hk hw q hq
  by_contra hc
  rw [(c81_before hL hO h hs hq hc).2.1] at this
  simp at this

/-- a rank whose program is done -/
theorem rest_of_nil (hL : Legal W G S) {s r k : Nat} (hs : s < S) {x : Whole.State α V}
    (hx : Whole.Reach (W.segs s).calls (W.segs s).comm (W.segs s).size (W.segs s).len (W.segs s).junk k x) (hr : r < (W.segs s).size)
    (hp : (x.coll r).prog = []) :
    (x.coll r).got.length = (W.segs s).len ∧ (x.user.rank r).phase = starts (W.segs s).calls (W.segs s).len ∧
      (x.user.rank r).mode = .idle := by
  have hJ := hL.script s hs
  cases Whole.at_reach hJ hx r hr with
  | between g hg hp' he hl hv h1 h2 h3 =>
    by_cases hK : g < (W.segs s).len
    · rw [hp, Whole.later_lt hK] at hp'; simp [Seq.callProg] at hp'
    · have : g = (W.segs s).len := by omega
      subst this
      rw [hJ.closed] at h3
      exact ⟨hl, h1, by simpa [Whole.Resting] using h3⟩
  | inside g l hg hp' he hl hv h1 h2 h3 => rw [hp] at hp'; simp at hp'

/-- When a process has left a communicator, all its calls there have returned, its receive loops have returned precisely what was packed
for it, and no packed message is under way on that communicator, not even between others. -/
theorem c81_left (hL : Legal W G S) (hO : Once W G) {st : State α V} (h : Reach W n st) {s r : Nat} (hs : s < S)
    (hr : r < (W.segs s).size) (hc : Left W st ((W.segs s).who r) s) :
    ((st.seg s).coll r).got.length = (W.segs s).len ∧
    (st.seg s).user.net = [] ∧
    (∀ m : Phase.Msg α, m ∈ ((st.seg s).user.got.filter (fun d => d.rank = r)).map (·.msg) ↔
      (m.dst = r ∧ 1 ≤ m.phase ∧ Phase.Owed (W.segs s).size (st.seg s).user m)) := by
  have hI := inv_reach hL hO h
  obtain ⟨j, hj⟩ := hI.reach s hs
  obtain ⟨h1, h2, h3⟩ := rest_of_nil hL hs hj hr (hI.over s hs r hr hc.2)
  obtain ⟨n', hn'⟩ := Whole.phase_reach (hL.script s hs) (hL.runs s hs) hj
  have hP := Phase.inv_reach hn'
  have hle := Phase.phase_le hn'
  have hend : ∀ p, p ≤ starts (W.segs s).calls (W.segs s).len → Phase.Ended (st.seg s).user r p := by
    intro p hp
    unfold Phase.Ended
    rw [h2]
    rcases Nat.lt_or_ge p (starts (W.segs s).calls (W.segs s).len) with hlt | hge
    · exact Or.inl hlt
    · exact Or.inr ⟨by omega, h3⟩
  refine ⟨h1, ?_, ?_⟩
  · rw [List.eq_nil_iff_forall_not_mem]
    intro m hm
    have hph : m.phase ≤ starts (W.segs s).calls (W.segs s).len := by
      have := (hP.flight m hm).2
      have := hle m.src
      omega
    exact (Phase.c28_quiescent hn' hr (hend _ hph)).2 m hm rfl
  · intro m
    constructor
    · intro hm
      obtain ⟨d, hd, rfl⟩ := List.mem_map.mp hm
      obtain ⟨hd, hdr⟩ := List.mem_filter.mp hd
      have hdr : d.rank = r := by simpa using hdr
      obtain ⟨a, b, c⟩ := Phase.c28_own_phase_only hn' d hd
      refine ⟨a.trans hdr, ?_, c⟩
      exact ((hP.exact' d.msg).mp (List.mem_append_left _ (List.mem_map.mpr ⟨d, hd, rfl⟩))).2.2
    · rintro ⟨a, b, c⟩
      have hph : m.phase ≤ starts (W.segs s).calls (W.segs s).len := by
        by_contra hgt
        have hne := c.2.2.1
        apply hne
        refine Phase.pieces_nil_of_future hP ?_
        have := hle m.src
        omega
      have := ((Phase.c28_exact hn' hr (hend _ hph)).2 m).mpr ⟨a, rfl, c⟩
      obtain ⟨d, hd, rfl⟩ := List.mem_map.mp this
      obtain ⟨hd, hdr⟩ := List.mem_filter.mp hd
      have hdr : d.rank = r ∧ d.phase = d.msg.phase := by simpa using hdr
      exact List.mem_map.mpr ⟨d, List.mem_filter.mpr ⟨hd, by simpa using hdr.1⟩, rfl⟩

/-- The messages of a process that has left are those of a new one: idle, with no buffers.  The next communicator begins with it. -/
theorem c81_handover (hL : Legal W G S) (hO : Once W G) {st : State α V} (h : Reach W n st) {s r : Nat} (hs : s < S)
    (hr : r < (W.segs s).size) (hc : Left W st ((W.segs s).who r) s) :
    ((st.seg s).user.rank r).mode = .idle ∧ ∀ d, ((st.seg s).user.rank r).peers d = none := by
  have hI := inv_reach hL hO h
  obtain ⟨j, hj⟩ := hI.reach s hs
  obtain ⟨h1, h2, h3⟩ := rest_of_nil hL hs hj hr (hI.over s hs r hr hc.2)
  obtain ⟨n', hn'⟩ := Whole.phase_reach (hL.script s hs) (hL.runs s hs) hj
  exact ⟨h3, fun d => (Phase.inv_reach hn').clean r d (Or.inl h3)⟩

/-! ## liveness -/

theorem untouched_refl (a : Whole.State α V) (r : Nat) : Untouched a a r := ⟨rfl, rfl, rfl⟩

/-- a rank whose program is done takes no step -/
theorem untouched_of_nil {J : Nat → Whole.Entry V} {N : Nat} {a b : Whole.State α V} (hs : Whole.Step J N a b) {q : Nat}
    (hp : (a.coll q).prog = []) (hm : (a.user.rank q).mode = .idle) : Untouched a b q := by
  have key : ∀ {r : Nat}, (∃ i rest, (a.coll r).prog = i :: rest) → q ≠ r := by
    rintro r ⟨i, rest, hr⟩ rfl
    rw [hp] at hr; cases hr
  have key' : ∀ {r : Nat} {m : Phase.Mode}, (a.user.rank r).mode = m → m ≠ .idle → q ≠ r := by
    rintro r m hr hne rfl
    exact hne (hr.symm.trans hm)
  cases hs with
  | comm c' hc =>
    cases hc with
    | issue r k p rest hr hq hn => exact ⟨Coll.upd_ne _ _ (key ⟨_, _, hq⟩), rfl, rfl⟩
    | done r k p rest hr hq hn => exact ⟨Coll.upd_ne _ _ (key ⟨_, _, hq⟩), rfl, rfl⟩
    | recv r k p kd k' rest rest' hr hq hq' hi =>
      refine ⟨?_, rfl, rfl⟩
      show Coll.upd (Coll.upd a.coll p _) r _ q = _
      rw [Coll.upd_ne _ _ (key ⟨_, _, hq⟩), Coll.upd_ne _ _ (key ⟨_, _, hq'⟩)]
  | begin r k rest v hr hq ho hmo =>
    have := key ⟨_, _, hq⟩
    exact ⟨Coll.upd_ne _ _ this, Coll.upd_ne _ _ this, Phase.upd_ne _ _ this⟩
  | started r k rest hr hq ho hmo =>
    have := key ⟨_, _, hq⟩
    exact ⟨Coll.upd_ne _ _ this, rfl, Phase.upd_ne _ _ this⟩
  | call r k rest v hr hq ho =>
    have := key ⟨_, _, hq⟩
    exact ⟨Coll.upd_ne _ _ this, Coll.upd_ne _ _ this, rfl⟩
  | «return» r k rest hr hq ho =>
    exact ⟨Coll.upd_ne _ _ (key ⟨_, _, hq⟩), rfl, rfl⟩
  | pack r d bytes hr hd hb hmo => exact ⟨rfl, rfl, Phase.upd_ne _ _ (key' hmo (by decide))⟩
  | send r hr hb hmo => exact ⟨rfl, rfl, Phase.upd_ne _ _ (key' hmo (by decide))⟩
  | listen r hr hmo A B m hnet hdst => exact ⟨rfl, rfl, rfl⟩
  | sent r k rest v hr hq ho hmo hdone =>
    have := key ⟨_, _, hq⟩
    exact ⟨Coll.upd_ne _ _ this, Coll.upd_ne _ _ this, Phase.upd_ne _ _ this⟩
  | finish r k rest hr hq ho hmo =>
    have := key ⟨_, _, hq⟩
    exact ⟨Coll.upd_ne _ _ this, rfl, Phase.upd_ne _ _ this⟩

theorem once_of_ordered (hO : Ordered W G) : Once W G := by
  obtain ⟨time, ht⟩ := hO
  intro g hg
  exact (ht g hg).imp (fun {a b} h e => by subst e; exact absurd h (Nat.lt_irrefl _))

/-- If all processes visit their communicators in a common order the job is never stuck before its end, however much the duplications and
releases wait for each other. -/
theorem c81_progress (hL : Legal W G S) (hO : Ordered W G) {st : State α V} (h : Reach W n st) (hn : ¬ Done G st) :
    ∃ st', Step W st st' ∧ SamePacks st st' := by
  have hOn := once_of_ordered hO
  have hI := inv_reach hL hOn h
  obtain ⟨time, ht⟩ := hO
  -- the process whose current stay is first in time
  obtain ⟨g0, s, hg0, hhead, hmin⟩ : ∃ g0 s, g0 < G ∧ (st.todo g0).head? = some s ∧
      ∀ g s', g < G → (st.todo g).head? = some s' → time s ≤ time s' := by
    unfold Done at hn
    push Not at hn
    obtain ⟨g1, hg1, hne⟩ := hn
    classical
    have : ∃ t, ∃ g s, g < G ∧ (st.todo g).head? = some s ∧ time s = t := by
      cases hl : st.todo g1 with
      | nil => exact absurd hl hne
      | cons s l => exact ⟨time s, g1, s, hg1, by rw [hl]; rfl, rfl⟩
    obtain ⟨g, s, a, b, c⟩ := Nat.find_spec this
    refine ⟨g, s, a, b, ?_⟩
    intro g' s' hg' hh
    rw [c]
    exact Nat.find_min' this ⟨g', s', hg', hh, rfl⟩
  have hmem : s ∈ W.plan g0 := (hI.suffix g0).subset (head_mem hhead)
  obtain ⟨hs, r0, hr0, hw0⟩ := (hL.member g0 s).mp hmem
  have harr : ∀ q, q < (W.segs s).size → Arrived st ((W.segs s).who q) s := by
    intro q hq hm
    have hgq := hL.proc s hs q hq
    cases hl : st.todo ((W.segs s).who q) with
    | nil => rw [hl] at hm; simp at hm
    | cons s' l =>
      rw [hl] at hm
      have h1 := hmin _ s' hgq (by rw [hl]; rfl)
      have h2 := (ht _ hgq).sublist (hI.suffix _).sublist
      rw [hl, List.pairwise_cons] at h2
      have := h2.1 s hm
      omega
  by_cases hent : ∃ r, r < (W.segs s).size ∧ (st.todo ((W.segs s).who r)).head? = some s ∧ st.stage ((W.segs s).who r) = .arriving
  · obtain ⟨r, hr, h1, h2⟩ := hent
    exact ⟨_, .enter s r hr h1 h2 (fun q hq _ => harr q hq), fun _ => rfl⟩
  have hcase : ∀ q, q < (W.segs s).size → Inside st ((W.segs s).who q) s ∨ Closed st ((W.segs s).who q) s := by
    intro q hq
    by_cases hm : s ∈ st.todo ((W.segs s).who q)
    · have hh := head_of_not_tail hm (harr q hq)
      cases hst : st.stage ((W.segs s).who q) with
      | arriving => exact absurd ⟨q, hq, hh, hst⟩ hent
      | inside => exact Or.inl ⟨hh, hst⟩
      | leaving => exact Or.inr (Or.inr ⟨harr q hq, hst⟩)
    · exact Or.inr (Or.inl hm)
  obtain ⟨k, hk⟩ := hI.reach s hs
  by_cases hf : Finished (W.segs s).size (st.seg s)
  · by_cases hin : ∃ r, r < (W.segs s).size ∧ Inside st ((W.segs s).who r) s
    · obtain ⟨r, hr, hi⟩ := hin
      exact ⟨_, .close s r hr hi (hf r hr), fun _ => rfl⟩
    · have hcl : ∀ q, q < (W.segs s).size → Closed st ((W.segs s).who q) s := by
        intro q hq
        rcases hcase q hq with hc | hc
        · exact absurd ⟨q, hq, hc⟩ hin
        · exact hc
      obtain ⟨rest, hrest⟩ : ∃ rest, st.todo g0 = s :: rest := by
        cases hl : st.todo g0 with
        | nil => rw [hl] at hhead; simp at hhead
        | cons a l => rw [hl] at hhead; simp at hhead; exact ⟨l, by rw [hhead]⟩
      have hst : st.stage g0 = .leaving := by
        rcases hcl r0 hr0 with hc | ⟨-, hc⟩
        · rw [hw0] at hc; exact absurd (head_mem hhead) hc
        · rw [hw0] at hc; exact hc
      subst hw0
      exact ⟨_, .freed s r0 rest hr0 hrest hst (fun q hq _ => hcl q hq), fun _ => rfl⟩
  · obtain ⟨x, hx, hpk⟩ := Whole.c78_progress (hL.script s hs) (hL.runs s hs) hk hf
    unfold Finished at hf
    push Not at hf
    obtain ⟨r, hr, hrp⟩ := hf
    have hi : Inside st ((W.segs s).who r) s := by
      rcases hcase r hr with hc | hc
      · exact hc
      · exact absurd (hI.over s hs r hr hc) hrp
    refine ⟨_, .act s r x hr hi hx ?_, ?_⟩
    · intro q hq hni
      have hc := (hcase q hq).resolve_left hni
      have hnil := hI.over s hs q hq hc
      exact untouched_of_nil hx hnil (rest_of_nil hL hs hk hq hnil).2.2
    · intro s'
      show (upd st.seg s x s').user.packs = _
      by_cases hj : s' = s
      · subst hj; rw [upd_same]; exact hpk
      · rw [upd_ne _ _ hj]

/-- how far a process has come -/
def moved (W : Job V) (st : State α V) (g : Nat) : Nat :=
  3 * ((W.plan g).length - (st.todo g).length) + (match st.stage g with | .arriving => 0 | .inside => 1 | .leaving => 2)

/-- every step is one on a communicator or a move of a process -/
theorem steps_eq (hL : Legal W G S) (hO : Once W G) {st : State α V} (h : Reach W n st) :
    ∃ c : Nat → Nat, (∀ s, s < S → Whole.Reach (W.segs s).calls (W.segs s).comm (W.segs s).size (W.segs s).len (W.segs s).junk (c s) (st.seg s)) ∧
      n = ((List.range S).map c).sum + ((List.range G).map (moved W st)).sum := by
  induction h with
  | init =>
    refine ⟨fun _ => 0, fun s _ => .init, ?_⟩
    have : moved W (initial W : State α V) = fun _ => 0 := by funext g; simp [moved, initial]
    rw [this]
    simp
  | @step n a b hr hs ih =>
    have hI := inv_reach hL hO hr
    obtain ⟨c, hc, hn⟩ := ih
    have hSG : ∀ {g s : Nat}, (a.todo g).head? = some s → s < S ∧ g < G := by
      intro g s hh
      obtain ⟨hs, r, hr, hw⟩ := (hL.member g s).mp ((hI.suffix g).subset (head_mem hh))
      exact ⟨hs, hw ▸ hL.proc s hs r hr⟩
    have hmove : ∀ (b : State α V) (g : Nat), g < G → (∀ j, j ≠ g → moved W b j = moved W a j) → moved W b g = moved W a g + 1 →
        b.seg = a.seg → ∃ c : Nat → Nat, (∀ s, s < S →
          Whole.Reach (W.segs s).calls (W.segs s).comm (W.segs s).size (W.segs s).len (W.segs s).junk (c s) (b.seg s)) ∧
          n + 1 = ((List.range S).map c).sum + ((List.range G).map (moved W b)).sum := by
      intro b g hg h1 h2 h3
      refine ⟨c, by rw [h3]; exact hc, ?_⟩
      have := Coll.sum_range_upd G (moved W a) (moved W b) g hg h1
      omega
    cases hs with
    | act s r x hr' hi hx hin' =>
      obtain ⟨hs, -⟩ := hSG hi.1
      refine ⟨upd c s (c s + 1), ?_, ?_⟩
      · intro s' hs'
        show Whole.Reach _ _ _ _ _ _ (upd a.seg s x s')
        by_cases hj : s' = s
        · subst hj; rw [upd_same, upd_same]; exact .step (hc _ hs') hx
        · rw [upd_ne _ _ hj, upd_ne _ _ hj]; exact hc _ hs'
      · have h1 := Coll.sum_range_upd S c (upd c s (c s + 1)) s hs (fun j hj => upd_ne _ _ hj)
        rw [upd_same] at h1
        have h2 : moved W { a with seg := upd a.seg s x } = moved W a := rfl
        rw [h2]
        omega
    | enter s r hr' ht hst hw =>
      refine hmove _ _ (hSG ht).2 ?_ ?_ rfl
      · intro j hj; simp only [moved, upd_ne _ _ hj]
      · simp only [moved, upd_same, hst]
    | close s r hr' hi hp =>
      refine hmove _ _ (hSG hi.1).2 ?_ ?_ rfl
      · intro j hj; simp only [moved, upd_ne _ _ hj]
      · simp only [moved, upd_same, hi.2]
    | freed s r rest hr' ht hst hw =>
      refine hmove _ _ (hSG (s := s) (by rw [ht]; rfl)).2 ?_ ?_ rfl
      · intro j hj; simp only [moved, upd_ne _ _ hj]
      · have hle := (hI.suffix ((W.segs s).who r)).length_le
        simp only [moved, upd_same, hst]
        rw [ht] at hle ⊢
        simp only [List.length_cons] at hle ⊢
        omega

/-- the messages packed so far, on all communicators -/
def packed (S : Nat) (st : State α V) : Nat := ((List.range S).map (fun s => (st.seg s).user.packs.length)).sum

theorem sum_le_sum (l : List Nat) (f g : Nat → Nat) (h : ∀ x ∈ l, f x ≤ g x) : (l.map f).sum ≤ (l.map g).sum := by
  induction l with
  | nil => simp
  | cons a l ih =>
    simp only [List.map_cons, List.sum_cons]
    have := h a (by simp)
    have := ih (fun x hx => h x (by simp [hx]))
    omega

theorem sum_split (l : List Nat) (f g : Nat → Nat) : (l.map (fun x => f x + 2 * g x)).sum = (l.map f).sum + 2 * (l.map g).sum := by
  induction l with
  | nil => simp
  | cons a l ih => simp only [List.map_cons, List.sum_cons]; omega

/-- The number of steps of any execution is bounded by the job and by what is packed: nothing runs for ever. -/
theorem c81_bounded (hL : Legal W G S) (hO : Once W G) :
    ∃ B, ∀ n (st : State α V), Reach W n st → n ≤ B + 2 * packed S st := by
  have hex : ∀ s, ∃ B, s < S → ∀ n (x : Whole.State α V),
      Whole.Reach (W.segs s).calls (W.segs s).comm (W.segs s).size (W.segs s).len (W.segs s).junk n x → n ≤ B + 2 * x.user.packs.length := by
    intro s
    by_cases hs : s < S
    · obtain ⟨B, hB⟩ := Whole.c78_bounded (α := α) (junk := (W.segs s).junk) (hL.script s hs) (hL.runs s hs)
      exact ⟨B, fun _ => hB⟩
    · exact ⟨0, fun h => absurd h hs⟩
  choose B hB using hex
  refine ⟨((List.range S).map B).sum + ((List.range G).map (fun g => 3 * (W.plan g).length + 2)).sum, ?_⟩
  intro n st h
  obtain ⟨c, hc, hn⟩ := steps_eq hL hO h
  have h1 : ((List.range S).map c).sum ≤ ((List.range S).map (fun s => B s + 2 * (st.seg s).user.packs.length)).sum :=
    sum_le_sum _ _ _ (fun s hs => hB s (List.mem_range.mp hs) _ _ (hc s (List.mem_range.mp hs)))
  rw [sum_split] at h1
  have h2 : ((List.range G).map (moved W st)).sum ≤ ((List.range G).map (fun g => 3 * (W.plan g).length + 2)).sum := by
    refine sum_le_sum _ _ _ (fun g _ => ?_)
    unfold moved
    cases st.stage g <;> simp only [] <;> omega
  unfold packed
  omega

/-- Hence from every reachable state the job can be driven to its end, without packing anything more. -/
theorem c81_complete (hL : Legal W G S) (hO : Ordered W G) {st : State α V} (h : Reach W n st) :
    ∃ n' st', Reach W n' st' ∧ Done G st' ∧ SamePacks st st' := by
  obtain ⟨B, hB⟩ := c81_bounded (α := α) hL (once_of_ordered hO)
  have hpk : ∀ x : State α V, SamePacks st x → packed S x = packed S st := by
    intro x hx
    unfold packed
    congr 1
    exact List.map_congr_left (fun s _ => by rw [hx s])
  suffices ∀ d n (x : State α V), n + d = B + 2 * packed S st + 1 → Reach W n x → SamePacks st x →
      ∃ n' st', Reach W n' st' ∧ Done G st' ∧ SamePacks st st' from
    this (B + 2 * packed S st + 1 - n) n st (by have := hB n st h; omega) h (fun _ => rfl)
  intro d
  induction d with
  | zero => intro n x hn hx hp; have := hB n x hx; rw [hpk x hp] at this; omega
  | succ d ih =>
    intro n x hn hx hp
    by_cases hf : Done G x
    · exact ⟨n, x, hx, hf, hp⟩
    · obtain ⟨y, hy, hyp⟩ := c81_progress hL hO hx hf
      exact ih (n + 1) y (by omega) (.step hx hy) (fun s => (hyp s).trans (hp s))

/-- At the end every call has returned on every communicator, every receive loop has ended and nothing is under way. -/
theorem c81_done (hL : Legal W G S) (hO : Once W G) {st : State α V} (h : Reach W n st) (hd : Done G st) {s : Nat} (hs : s < S) :
    Phase.AllDone (W.segs s).size (starts (W.segs s).calls (W.segs s).len) (st.seg s).user ∧
      ∀ r, r < (W.segs s).size → ((st.seg s).coll r).got.length = (W.segs s).len := by
  have hI := inv_reach hL hO h
  obtain ⟨k, hk⟩ := hI.reach s hs
  refine Whole.c78_finished (hL.script s hs) hk ?_
  intro r hr
  exact hI.over s hs r hr (Or.inl (by rw [hd _ (hL.proc s hs r hr)]; simp))

/-! ## a job that meets the hypotheses: the switches of `engpar::split` with a local split, partition/Multilevel/engpar_split.cpp:28-59 -/

/-- `k` of `G` processes work on the small communicator, each alone, on the small one again; then all on the large one.  On every
communicator they run the program of the example of C78, with two phases and collectives between. -/
def splitJob (k G : Nat) (P : Nat → Nat → Nat → List Coll.Instr) : Job Int where
  segs s := if s = 0 ∨ s = k + 1 then ⟨k, fun r => r, Whole.sampleJob, 7, P k, fun _ => 0⟩
    else if s = k + 2 then ⟨G, fun r => r, Whole.sampleJob, 7, P G, fun _ => 0⟩
    else ⟨1, fun _ => s - 1, Whole.sampleJob, 7, P 1, fun _ => 0⟩
  plan g := if g < k then [0, g + 1, k + 1, k + 2] else if g < G then [k + 2] else []
  dupWaits _ _ _ := true
  freeWaits _ _ _ := true

theorem splitJob_legal {k G : Nat} (hk : k ≤ G) {P : Nat → Nat → Nat → List Coll.Instr} (hP : ∀ N, JobRuns Whole.sampleJob N 7 (P N)) :
    Legal (splitJob k G P) G (k + 3) := by
  refine ⟨?_, ?_, ?_, ?_, ?_⟩
  · intro s hs r
    simp only [splitJob]
    split
    · intro hr; exact Nat.lt_of_lt_of_le hr hk
    · split
      · intro hr; exact hr
      · intro _; show s - 1 < G; omega
  · intro s hs r q
    simp only [splitJob]
    split
    · intro _ _ h; exact h
    · split
      · intro _ _ h; exact h
      · intro hr hq _
        have : r < 1 := hr
        have : q < 1 := hq
        omega
  · intro g s
    have hsize : (∃ r, r < ((splitJob k G P).segs s).size ∧ ((splitJob k G P).segs s).who r = g) ↔
        (if s = 0 ∨ s = k + 1 then g < k else if s = k + 2 then g < G else g = s - 1) := by
      simp only [splitJob]
      split
      · simp
      · split
        · simp
        · constructor
          · rintro ⟨r, -, h⟩; exact h.symm
          · intro h; exact ⟨0, Nat.zero_lt_one, h.symm⟩
    rw [hsize]
    simp only [splitJob]
    split <;> rename_i h1
    · simp only [List.mem_cons, List.not_mem_nil, or_false]
      constructor
      · rintro (rfl | rfl | rfl | rfl)
        · simp; exact h1
        · refine ⟨by omega, ?_⟩
          rw [if_neg (by omega), if_neg (by omega)]; omega
        · simp; exact h1
        · refine ⟨by omega, ?_⟩
          rw [if_neg (by omega), if_pos rfl]; omega
      · rintro ⟨hs, h⟩
        split at h
        · omega
        · split at h <;> omega
    · split <;> rename_i h2
      · simp only [List.mem_cons, List.not_mem_nil, or_false]
        constructor
        · rintro rfl
          refine ⟨by omega, ?_⟩
          rw [if_neg (by omega), if_pos rfl]; exact h2
        · rintro ⟨hs, h⟩
          split at h
          · omega
          · split at h <;> omega
      · constructor
        · intro h; simp at h
        · rintro ⟨hs, h⟩
          split at h
          · omega
          · split at h <;> omega
  · intro s _
    have h1 : ((splitJob k G P).segs s).calls = Whole.sampleJob := by simp only [splitJob]; split <;> [rfl; (split <;> rfl)]
    have h2 : ((splitJob k G P).segs s).len = 7 := by simp only [splitJob]; split <;> [rfl; (split <;> rfl)]
    rw [h1, h2]
    exact Whole.sampleJob_script
  · intro s _
    simp only [splitJob]
    split
    · exact hP k
    · split
      · exact hP G
      · exact hP 1

theorem splitJob_ordered (k G : Nat) (P : Nat → Nat → Nat → List Coll.Instr) : Ordered (splitJob k G P) G := by
  refine ⟨id, ?_⟩
  intro g hg
  simp only [splitJob]
  split
  · simp only [List.pairwise_cons, List.mem_cons, List.not_mem_nil, or_false, id]
    refine ⟨?_, ?_, ?_, ?_, List.Pairwise.nil⟩
    · rintro a (rfl | rfl | rfl) <;> omega
    · rintro a (rfl | rfl) <;> omega
    · rintro a rfl; omega
    · intro a h; exact h.elim
  · simp

/-- for any number of processes and any size of the small communicator the job is legal and ordered, and with every duplication and
release waiting for all there are complete executions, in which every process has left every communicator -/
example (k G : Nat) (hk : k ≤ G) : ∃ P, Legal (splitJob k G P) G (k + 3) ∧ Ordered (splitJob k G P) G ∧
    ∃ n, ∃ st : State UInt8 Int, Reach (splitJob k G P) n st ∧ Done G st ∧
      ∀ r, r < G → Left (splitJob k G P) st r (k + 2) ∧ ((st.seg (k + 2)).coll r).got.length = 7 ∧ (st.seg (k + 2)).user.net = [] := by
  choose P hP using fun N => Whole.c78_programs Whole.sampleJob N 7
  have hL := splitJob_legal hk hP
  have hO := splitJob_ordered k G P
  obtain ⟨n, st, h, hd, -⟩ := c81_complete (α := UInt8) hL hO .init
  refine ⟨P, hL, hO, n, st, h, hd, ?_⟩
  intro r hr
  have hseg : (splitJob k G P).segs (k + 2) = ⟨G, fun r => r, Whole.sampleJob, 7, P G, fun _ => 0⟩ := by
    simp only [splitJob]
    rw [if_neg (by omega), if_pos trivial]
  have hleft : Left (splitJob k G P) st r (k + 2) := by
    refine ⟨?_, Or.inl (by rw [hd r hr]; simp)⟩
    rw [hL.member]
    exact ⟨by omega, r, by rw [hseg]; exact hr, by rw [hseg]⟩
  have := c81_left hL (once_of_ordered hO) h (s := k + 2) (r := r) (by omega) (by rw [hseg]; exact hr) (by rw [hseg]; exact hleft)
  refine ⟨hleft, ?_, this.2.1⟩
  have h3 := this.1
  rw [hseg] at h3
  exact h3

/-! ## the common order is needed -/

/-- two processes, two communicators of both, visited in opposite orders -/
def crossed : Job Int where
  segs _ := ⟨2, fun r => r, Whole.sampleJob, 0, fun _ _ => [], fun _ => 0⟩
  plan g := if g = 0 then [0, 1] else if g = 1 then [1, 0] else []
  dupWaits _ _ _ := true
  freeWaits _ _ _ := true

/-- Each process visits only communicators it belongs to, each once, and runs nothing on them; but the orders differ, and if the
duplication of a communicator waits for all its processes the job is stuck from the beginning. -/
theorem c81_order_needed : Legal crossed 2 2 ∧ Once crossed 2 ∧ ¬ Ordered crossed 2 ∧ ¬ Done 2 (initial crossed : State UInt8 Int) ∧
    ∀ st : State UInt8 Int, ¬ Step crossed (initial crossed) st := by
  refine ⟨⟨?_, ?_, ?_, ?_, ?_⟩, ?_, ?_, ?_, ?_⟩
  · intro s _ r hr; exact hr
  · intro s _ r q _ _ h; exact h
  · intro g s
    simp only [crossed]
    constructor
    · intro h
      split at h
      · simp at h; exact ⟨by omega, g, by omega, rfl⟩
      · split at h
        · simp at h; exact ⟨by omega, g, by omega, rfl⟩
        · simp at h
    · rintro ⟨hs, r, hr, rfl⟩
      have : r = 0 ∨ r = 1 := by omega
      rcases this with rfl | rfl <;> simp <;> omega
  · intro s _
    exact ⟨fun k hk => absurd hk (Nat.not_lt_zero _), fun k hk => absurd hk (Nat.not_lt_zero _), rfl, fun k hk => absurd hk (Nat.not_lt_zero _)⟩
  · intro s _ k hk; exact absurd hk (Nat.not_lt_zero _)
  · intro g hg
    have : g = 0 ∨ g = 1 := by omega
    rcases this with rfl | rfl <;> simp [crossed]
  · rintro ⟨time, ht⟩
    have h0 := ht 0 (by omega)
    have h1 := ht 1 (by omega)
    simp [crossed] at h0 h1
    omega
  · intro h
    have := h 0 (by omega)
    simp [initial, crossed] at this
  · intro st h
    cases h with
    | act s r x hr hi hx hin => exact absurd hi.2 (by simp [initial])
    | close s r hr hi hp => exact absurd hi.2 (by simp [initial])
    | freed s r rest hr ht hst hw => exact absurd hst (by simp [initial])
    | enter s r hr ht hst hw =>
      have hr : r < 2 := hr
      have : r = 0 ∨ r = 1 := by omega
      rcases this with rfl | rfl
      · simp [initial, crossed] at ht
        subst ht
        have := hw 1 (by show 1 < 2; omega) rfl
        simp [Arrived, initial, crossed] at this
      · simp [initial, crossed] at ht
        subst ht
        have := hw 0 (by show 0 < 2; omega) rfl
        simp [Arrived, initial, crossed] at this

end Verif.Pcu.Switch
