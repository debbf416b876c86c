import Verif.Pcu.WholeSpec
/-! C78: where a rank is, and the two projections -/
namespace Verif.Pcu.Whole
open Verif.Pcu.Coll (upd upd_same upd_ne)

variable {α V : Type} {J : Nat → Entry V} {P : Nat → Nat → List Coll.Instr} {N K n : Nat} {junk : Nat → V}

/-- number of phase barriers among the first `k` calls -/
def barriers (J : Nat → Entry V) : Nat → Nat
  | 0 => 0
  | k + 1 => if (J k).role = .user then barriers J k else barriers J k + 1

theorem barriers_mono (J : Nat → Entry V) {a b : Nat} (h : a ≤ b) : barriers J a ≤ barriers J b := by
  induction h with
  | refl => exact Nat.le_refl _
  | step _ ih =>
    refine Nat.le_trans ih ?_
    rw [barriers]
    split <;> omega

theorem starts_mono (J : Nat → Entry V) {a b : Nat} (h : a ≤ b) : starts J a ≤ starts J b := by
  induction h with
  | refl => exact Nat.le_refl _
  | step _ ih =>
    refine Nat.le_trans ih ?_
    rw [starts]
    split <;> omega

/-- the calls from number `g` on -/
def later (P : Nat → Nat → List Coll.Instr) (K r g : Nat) : List Seq.Instr :=
  (List.range' g (K - g)).flatMap (Seq.callProg P r)

theorem later_lt {r g : Nat} (h : g < K) : later P K r g = Seq.callProg P r g ++ later P K r (g + 1) := by
  unfold later
  obtain ⟨d, hd⟩ : ∃ d, K - g = d + 1 := ⟨K - g - 1, by omega⟩
  rw [hd, List.range'_succ, List.flatMap_cons, show K - (g + 1) = d by omega]

theorem later_end {r : Nat} : later P K r K = [] := by simp [later]

/-- the mode of a rank that is not inside a barrier of a phase -/
def Resting (b : Bool) (m : Phase.Mode) : Prop := if b = true then m = .pack ∨ m = .sendRecv else m = .idle

/-- the mode inside call `g` -/
def Inside (J : Nat → Entry V) (g : Nat) (m : Phase.Mode) : Prop :=
  match (J g).role with
  | .start => m = .starting
  | .stop => m = .recv
  | .user => Resting (openAt J g) m

/-- where rank `r` is: between calls, `g` of them made, or inside call `g` with `l` still to communicate -/
inductive At (J : Nat → Entry V) (P : Nat → Nat → List Coll.Instr) (K r : Nat) (s : Seq.RankSt V) (gl : Nat) (u : Phase.Rank α) : Prop
  | between (g : Nat) (hg : g ≤ K) (hp : s.prog = later P K r g) (he : s.entered = List.range g) (hl : s.got.length = g) (hv : gl = g)
      (h1 : u.phase = starts J g) (h2 : u.entered = barriers J g) (h3 : Resting (openAt J g) u.mode)
  | inside (g : Nat) (l : List Coll.Instr) (hg : g < K) (hp : s.prog = l.map (Seq.tag g) ++ .leave g :: later P K r (g + 1))
      (he : s.entered = List.range (g + 1)) (hl : s.got.length = g) (hv : gl = g + 1)
      (h1 : u.phase = starts J (g + 1)) (h2 : u.entered = barriers J (g + 1)) (h3 : Inside J g u.mode)

theorem at_enter {r : Nat} {s : Seq.RankSt V} {gl : Nat} {u : Phase.Rank α} (h : At J P K r s gl u) {k : Nat} {rest : List Seq.Instr}
    (hp : s.prog = .enter k :: rest) : k < K ∧ rest = (P k r).map (Seq.tag k) ++ .leave k :: later P K r (k + 1) ∧
      s.entered = List.range k ∧ s.got.length = k ∧ gl = k ∧ u.phase = starts J k ∧ u.entered = barriers J k ∧
      Resting (openAt J k) u.mode := by
  cases h with
  | between g hg hp' he hl hv h1 h2 h3 =>
    by_cases hK : g < K
    · rw [hp, later_lt hK, Seq.callProg, List.cons_append] at hp'
      simp only [List.cons.injEq, Seq.Instr.enter.injEq] at hp'
      obtain ⟨rfl, rfl⟩ := hp'
      exact ⟨hK, by simp, he, hl, hv, h1, h2, h3⟩
    · have : g = K := by omega
      subst this
      rw [hp, later_end] at hp'
      simp at hp'
  | inside g l hg hp' he hl hv h1 h2 h3 =>
    rw [hp] at hp'
    cases l with
    | nil => simp at hp'
    | cons i l => cases i <;> simp [Seq.tag] at hp'

theorem at_leave {r : Nat} {s : Seq.RankSt V} {gl : Nat} {u : Phase.Rank α} (h : At J P K r s gl u) {k : Nat} {rest : List Seq.Instr}
    (hp : s.prog = .leave k :: rest) : k < K ∧ rest = later P K r (k + 1) ∧
      s.entered = List.range (k + 1) ∧ s.got.length = k ∧ gl = k + 1 ∧ u.phase = starts J (k + 1) ∧ u.entered = barriers J (k + 1) ∧
      Inside J k u.mode := by
  cases h with
  | between g hg hp' he hl hv h1 h2 h3 =>
    by_cases hK : g < K
    · rw [hp, later_lt hK, Seq.callProg, List.cons_append] at hp'
      simp at hp'
    · have : g = K := by omega
      subst this
      rw [hp, later_end] at hp'
      simp at hp'
  | inside g l hg hp' he hl hv h1 h2 h3 =>
    rw [hp] at hp'
    cases l with
    | nil =>
      simp at hp'
      obtain ⟨rfl, rfl⟩ := hp'
      exact ⟨hg, rfl, he, hl, hv, h1, h2, h3⟩
    | cons i l => cases i <;> simp [Seq.tag] at hp'

/-- a send or receive is made inside a call -/
theorem at_comm {r : Nat} {s : Seq.RankSt V} {gl : Nat} {u : Phase.Rank α} (h : At J P K r s gl u) {i : Seq.Instr} {rest : List Seq.Instr}
    (hp : s.prog = i :: rest) (hi : (∃ k p, i = .send k p) ∨ ∃ k p kd, i = .recv k p kd) (s' : Seq.RankSt V) (hp' : s'.prog = rest)
    (he : s'.entered = s.entered) (hg : s'.got = s.got) : At J P K r s' gl u := by
  cases h with
  | between g hgK hq he' hl hv h1 h2 h3 =>
    exfalso
    by_cases hK : g < K
    · rw [hp, later_lt hK, Seq.callProg, List.cons_append] at hq
      simp at hq
      rcases hi with ⟨k, p, rfl⟩ | ⟨k, p, kd, rfl⟩ <;> simp at hq
    · have : g = K := by omega
      subst this
      rw [hp, later_end] at hq
      simp at hq
  | inside g l hgK hq he' hl hv h1 h2 h3 =>
    rw [hp] at hq
    cases l with
    | nil =>
      simp at hq
      rcases hi with ⟨k, p, rfl⟩ | ⟨k, p, kd, rfl⟩ <;> simp at hq
    | cons j l =>
      simp at hq
      exact .inside g l hgK (by rw [hp', hq.2]) (by rw [he, he']) (by rw [hg, hl]) hv h1 h2 h3

/-- only the send state differs -/
theorem at_same {r : Nat} {s s' : Seq.RankSt V} {gl : Nat} {u : Phase.Rank α} (h : At J P K r s gl u) (hp : s'.prog = s.prog)
    (he : s'.entered = s.entered) (hg : s'.got = s.got) : At J P K r s' gl u := by
  cases h with
  | between g a b c d e f i j => exact .between g a (by rw [hp, b]) (by rw [he, c]) (by rw [hg, d]) e f i j
  | inside g l a b c d e f i j => exact .inside g l a (by rw [hp, b]) (by rw [he, c]) (by rw [hg, d]) e f i j

/-- the phase part changes within a rest -/
theorem at_user {r : Nat} {s : Seq.RankSt V} {gl : Nat} {u u' : Phase.Rank α} (h : At J P K r s gl u) (hb : Between s)
    (h1 : u'.phase = u.phase) (h2 : u'.entered = u.entered) (h3 : ∀ b, Resting b u.mode → Resting b u'.mode) : At J P K r s gl u' := by
  cases h with
  | between g a b c d e f i j => exact .between g a b c d e (by rw [h1, f]) (by rw [h2, i]) (h3 _ j)
  | inside g l a b c d e f i j =>
    exfalso
    rcases hb with hb | ⟨k, rest, hb⟩
    · rw [hb] at b; simp at b
    · rw [hb] at b
      cases l with
      | nil => simp at b
      | cons x l => cases x <;> simp [Seq.tag] at b

/-- the invariant of all ranks -/
def AtAll (J : Nat → Entry V) (P : Nat → Nat → List Coll.Instr) (N K : Nat) (st : State α V) : Prop :=
  ∀ r, r < N → At J P K r (st.coll r) (st.gave r).length (st.user.rank r)

theorem openAt_succ (k : Nat) : openAt J (k + 1) = (match (J k).role with | .start => true | .stop => false | .user => openAt J k) := rfl

theorem at_step (hJ : Script J K) {a b : State α V} (h : AtAll J P N K a) (hs : Step J N a b) : AtAll J P N K b := by
  intro q hq
  have h0 := h q hq
  cases hs with
  | comm c' hc =>
    cases hc with
    | issue r k p rest hr hp hn =>
      show At J P K q (upd a.coll r _ q) _ _
      by_cases hj : q = r
      · subst hj; rw [upd_same]; exact at_same h0 rfl rfl rfl
      · rw [upd_ne _ _ hj]; exact h0
    | done r k p rest hr hp hn =>
      show At J P K q (upd a.coll r _ q) _ _
      by_cases hj : q = r
      · subst hj; rw [upd_same]; exact at_comm h0 hp (Or.inl ⟨k, p, rfl⟩) _ rfl rfl rfl
      · rw [upd_ne _ _ hj]; exact h0
    | recv r k p kd k' rest rest' hr hp hp' hi =>
      show At J P K q (upd (upd a.coll p _) r _ q) _ _
      by_cases hj : q = r
      · subst hj; rw [upd_same]; exact at_comm h0 hp (Or.inr ⟨k, p, kd, rfl⟩) _ rfl rfl rfl
      · rw [upd_ne _ _ hj]
        by_cases hj2 : q = p
        · subst hj2; rw [upd_same]; exact at_same h0 rfl rfl rfl
        · rw [upd_ne _ _ hj2]; exact h0
  | begin r k rest v hr hp ho hm =>
    show At J P K q (upd a.coll r _ q) (upd a.gave r _ q).length (Phase.upd a.user.rank r _ q)
    by_cases hj : q = r
    · subst hj
      rw [upd_same, upd_same, Phase.upd_same]
      obtain ⟨hk, hrest, he, hl, hv, h1, h2, h3⟩ := at_enter h0 hp
      refine .inside k (P k q) hk hrest ?_ hl ?_ ?_ ?_ ?_
      · simp [entering, he, List.range_succ]
      · simp [hv]
      · simp [starts, ho, h1]
      · simp [barriers, ho, h2]
      · simp [Inside, ho]
    · rw [upd_ne _ _ hj, upd_ne _ _ hj, Phase.upd_ne _ _ hj]; exact h0
  | sent r k rest v hr hp ho hm hd =>
    show At J P K q (upd a.coll r _ q) (upd a.gave r _ q).length (Phase.upd a.user.rank r _ q)
    by_cases hj : q = r
    · subst hj
      rw [upd_same, upd_same, Phase.upd_same]
      obtain ⟨hk, hrest, he, hl, hv, h1, h2, h3⟩ := at_enter h0 hp
      refine .inside k (P k q) hk hrest ?_ hl ?_ ?_ ?_ ?_
      · simp [entering, he, List.range_succ]
      · simp [hv]
      · simp [starts, ho, h1]
      · simp [barriers, ho, h2]
      · simp [Inside, ho]
    · rw [upd_ne _ _ hj, upd_ne _ _ hj, Phase.upd_ne _ _ hj]; exact h0
  | call r k rest v hr hp ho =>
    show At J P K q (upd a.coll r _ q) (upd a.gave r _ q).length (a.user.rank q)
    by_cases hj : q = r
    · subst hj
      rw [upd_same, upd_same]
      obtain ⟨hk, hrest, he, hl, hv, h1, h2, h3⟩ := at_enter h0 hp
      refine .inside k (P k q) hk hrest ?_ hl ?_ ?_ ?_ ?_
      · simp [entering, he, List.range_succ]
      · simp [hv]
      · simp [starts, ho, h1]
      · simp [barriers, ho, h2]
      · simp only [Inside, ho]; exact h3
    · rw [upd_ne _ _ hj, upd_ne _ _ hj]; exact h0
  | started r k rest hr hp ho hm =>
    show At J P K q (upd a.coll r _ q) (a.gave q).length (Phase.upd a.user.rank r _ q)
    by_cases hj : q = r
    · subst hj
      rw [upd_same, Phase.upd_same]
      obtain ⟨hk, hrest, he, hl, hv, h1, h2, h3⟩ := at_leave h0 hp
      refine .between (k + 1) hk hrest he ?_ hv h1 h2 ?_
      · simp [leaving, hl]
      · simp [openAt_succ, ho, Resting]
    · rw [upd_ne _ _ hj, Phase.upd_ne _ _ hj]; exact h0
  | finish r k rest hr hp ho hm =>
    show At J P K q (upd a.coll r _ q) (a.gave q).length (Phase.upd a.user.rank r _ q)
    by_cases hj : q = r
    · subst hj
      rw [upd_same, Phase.upd_same]
      obtain ⟨hk, hrest, he, hl, hv, h1, h2, h3⟩ := at_leave h0 hp
      refine .between (k + 1) hk hrest he ?_ hv h1 h2 ?_
      · simp [leaving, hl]
      · simp [openAt_succ, ho, Resting]
    · rw [upd_ne _ _ hj, Phase.upd_ne _ _ hj]; exact h0
  | «return» r k rest hr hp ho =>
    show At J P K q (upd a.coll r _ q) (a.gave q).length (a.user.rank q)
    by_cases hj : q = r
    · subst hj
      rw [upd_same]
      obtain ⟨hk, hrest, he, hl, hv, h1, h2, h3⟩ := at_leave h0 hp
      refine .between (k + 1) hk hrest he ?_ hv h1 h2 ?_
      · simp [leaving, hl]
      · simp only [Inside, ho] at h3
        simp only [openAt_succ, ho]; exact h3
    · rw [upd_ne _ _ hj]; exact h0
  | pack r d bytes hr hd hb hm =>
    show At J P K q (a.coll q) (a.gave q).length (Phase.upd a.user.rank r _ q)
    by_cases hj : q = r
    · subst hj
      rw [Phase.upd_same]
      exact at_user h0 hb rfl rfl (fun b hb => hb)
    · rw [Phase.upd_ne _ _ hj]; exact h0
  | send r hr hb hm =>
    show At J P K q (a.coll q) (a.gave q).length (Phase.upd a.user.rank r _ q)
    by_cases hj : q = r
    · subst hj
      rw [Phase.upd_same]
      refine at_user h0 hb rfl rfl (fun b hb => ?_)
      rw [hm] at hb
      cases b <;> simp [Resting] at hb ⊢
    · rw [Phase.upd_ne _ _ hj]; exact h0
  | listen r hr hm A B m hnet hdst => exact h0

theorem at_init : AtAll J P N K (initial P N K junk : State α V) := by
  intro r hr
  refine .between 0 (Nat.zero_le _) ?_ rfl rfl rfl rfl rfl ?_
  · simp only [initial, Seq.initial, if_pos hr]
    simp [Seq.jobProg, later, List.range_eq_range']
  · simp [openAt, Resting, initial, Phase.init]

theorem at_reach (hJ : Script J K) {st : State α V} (h : Reach J P N K junk n st) : AtAll J P N K st := by
  induction h with
  | init => exact at_init
  | step _ hs ih => exact at_step hJ ih hs

/-! ## the collectives of an execution are an execution of SeqModel -/

/-- the calls, when rank `r` is going to contribute `fin r` -/
def callsOf (J : Nat → Entry V) (junk : Nat → V) (fin : Nat → List V) : Nat → Seq.Call V := fun k =>
  { what := (J k).what, op := (J k).op, give := fun r _ => (fin r)[k]?.getD (junk r) }

theorem gave_step {a b : State α V} (hs : Step J N a b) (r : Nat) : a.gave r <+: b.gave r := by
  have one : ∀ (q : Nat) (v : V), a.gave r <+: upd a.gave q (a.gave q ++ [v]) r := by
    intro q v
    by_cases hj : r = q
    · subst hj; rw [upd_same]; exact List.prefix_append _ _
    · rw [upd_ne _ _ hj]; exact List.prefix_refl _
  cases hs with
  | begin q k rest v hr hp ho hm => exact one q v
  | sent q k rest v hr hp ho hm hd => exact one q v
  | call q k rest v hr hp ho => exact one q v
  | comm => exact List.prefix_refl _
  | started => exact List.prefix_refl _
  | «return» => exact List.prefix_refl _
  | pack => exact List.prefix_refl _
  | send => exact List.prefix_refl _
  | listen => exact List.prefix_refl _
  | finish => exact List.prefix_refl _

/-- entering a call, as a step of SeqModel -/
theorem enter_seq {st : State α V} (hA : AtAll J P N K st) {fin : Nat → List V} {r k : Nat} {rest : List Seq.Instr} {v : V} (hr : r < N)
    (hp : (st.coll r).prog = .enter k :: rest) (hfin : st.gave r ++ [v] <+: fin r) :
    Seq.Step (callsOf J junk fin) N st.coll (upd st.coll r (entering (st.coll r) k rest v)) := by
  obtain ⟨-, -, -, -, hv, -⟩ := at_enter (hA r hr) hp
  have hs := Seq.Step.enter (C := callsOf J junk fin) r k rest hr hp
  have hval : (callsOf J junk fin k).give r (st.coll r).got = v := by
    obtain ⟨t, ht⟩ := hfin
    simp only [callsOf]
    rw [← ht, List.append_assoc, ← hv, List.getElem?_append_right (Nat.le_refl _)]
    simp
  rw [hval] at hs
  exact hs

/-- what one step does to the two parts: a step of SeqModel or nothing, a step of PhaseModel or nothing -/
theorem seq_step {a b : State α V} (hA : AtAll J P N K a) (hs : Step J N a b) {fin : Nat → List V} (hfin : ∀ r, b.gave r <+: fin r) :
    Seq.Step (callsOf J junk fin) N a.coll b.coll ∨ (b.coll = a.coll ∧ ∀ L, Phase.Step N L a.user b.user) := by
  cases hs with
  | comm c' hc =>
    left
    cases hc with
    | issue r k p rest hr hp hn => exact .issue r k p rest hr hp hn
    | done r k p rest hr hp hn => exact .done r k p rest hr hp hn
    | recv r k p kd k' rest rest' hr hp hp' hi =>
      exact Seq.Step.recv (C := callsOf J junk fin) r k p kd k' rest rest' hr hp hp' hi
  | begin r k rest v hr hp ho hm =>
    exact Or.inl (enter_seq hA hr hp (by have := hfin r; simp only [upd_same] at this; exact this))
  | sent r k rest v hr hp ho hm hd =>
    exact Or.inl (enter_seq hA hr hp (by have := hfin r; simp only [upd_same] at this; exact this))
  | call r k rest v hr hp ho =>
    exact Or.inl (enter_seq hA hr hp (by have := hfin r; simp only [upd_same] at this; exact this))
  | started r k rest hr hp ho hm => exact Or.inl (.leave r k rest hr hp)
  | finish r k rest hr hp ho hm => exact Or.inl (.leave r k rest hr hp)
  | «return» r k rest hr hp ho => exact Or.inl (.leave r k rest hr hp)
  | pack r d bytes hr hd hb hm => exact Or.inr ⟨rfl, fun L => .pack r d bytes hr hd hm⟩
  | send r hr hb hm => exact Or.inr ⟨rfl, fun L => .send r hr hm⟩
  | listen r hr hm A B m hnet hdst =>
    exact Or.inr ⟨rfl, fun L => .listen r hr (hm.elim Or.inr (fun x => Or.inl x.1)) A B m hnet hdst⟩

theorem seq_reach (hJ : Script J K) {st : State α V} (h : Reach J P N K junk n st) :
    ∀ fin : Nat → List V, (∀ r, st.gave r <+: fin r) →
      ∃ n', Seq.Steps (callsOf J junk fin) N n' (Seq.initial P N K junk) st.coll := by
  induction h with
  | init => intro fin _; exact ⟨0, .refl _⟩
  | step h' hs ih =>
    intro fin hfin
    obtain ⟨n', hn'⟩ := ih fin (fun r => (gave_step hs r).trans (hfin r))
    rcases seq_step (at_reach hJ h') hs hfin with h1 | ⟨h1, -⟩
    · exact ⟨n' + 1, .tail hn' h1⟩
    · exact ⟨n', by rw [h1]; exact hn'⟩

/-! ## the phases of an execution are an execution of PhaseModel -/

/-- who has left call `k`, an allreduce, knows that everybody has entered it -/
theorem left_entered (hJ : Script J K) (hP : JobRuns J N K P) {st : State α V} (h : Reach J P N K junk n st) {r k : Nat} (hr : r < N)
    (hk : k < (st.coll r).got.length) (hw : (J k).what = .allreduce) : ∀ q, q < N → k ∈ (st.coll q).entered := by
  intro q hq
  obtain ⟨n', hn'⟩ := seq_reach hJ h st.gave (fun r => List.prefix_refl _)
  have hP' : Seq.JobRuns (callsOf J junk st.gave) N K P := hP
  refine Seq.c77_barrier hP' hn' r k hr hk q hq ?_
  intro hx
  have : (J k).what = .scan := hx
  rw [hw] at this
  simp at this

/-- the contract of the barrier that PhaseModel assumes -/
theorem barrier_open (hJ : Script J K) (hP : JobRuns J N K P) {a b : State α V} (ha : Reach J P N K junk n a) (hs : Step J N a b) {r k : Nat}
    {rest : List Seq.Instr} (hr : r < N) (hp : (a.coll r).prog = .leave k :: rest) (ho : (J k).role ≠ .user)
    (hc : b.coll = upd a.coll r (leaving (a.coll r) rest)) : Phase.BarrierOpen N a.user r := by
  intro q hq
  have hA := at_reach hJ ha
  obtain ⟨hk, -, -, hl, -, -, h2, -⟩ := at_leave (hA r hr) hp
  have hb : Reach J P N K junk (n + 1) b := .step ha hs
  have hgot : k < (b.coll r).got.length := by
    rw [hc, upd_same]; simp [leaving, hl]
  have hin := left_entered hJ hP hb hr hgot (hJ.barrier k hk ho) q hq
  have hin' : k ∈ (a.coll q).entered := by
    rw [hc] at hin
    by_cases hj : q = r
    · subst hj; rw [upd_same] at hin; exact hin
    · rwa [upd_ne _ _ hj] at hin
  rw [h2]
  cases hA q hq with
  | between g _ _ he _ _ _ h2' _ =>
    rw [he] at hin'
    rw [h2']
    exact barriers_mono J (by have := List.mem_range.mp hin'; omega)
  | inside g l _ _ he _ _ _ h2' _ =>
    rw [he] at hin'
    rw [h2']
    exact barriers_mono J (by have := List.mem_range.mp hin'; omega)

/-- what one step does to the phases -/
theorem phase_step (hJ : Script J K) (hP : JobRuns J N K P) {a b : State α V} (ha : Reach J P N K junk n a) (hs : Step J N a b) :
    Phase.Step N (starts J K) a.user b.user ∨ b.user = a.user := by
  have hs' := hs
  cases hs with
  | comm c' hc => exact Or.inr rfl
  | call r k rest v hr hp ho => exact Or.inr rfl
  | «return» r k rest hr hp ho => exact Or.inr rfl
  | begin r k rest v hr hp ho hm =>
    obtain ⟨hk, -, -, -, -, h1, -, -⟩ := at_enter (at_reach hJ ha r hr) hp
    refine Or.inl (.begin r hr hm ?_)
    rw [h1]
    have h2 : starts J (k + 1) = starts J k + 1 := by simp [starts, ho]
    have h3 := starts_mono J (show k + 1 ≤ K from hk)
    omega
  | started r k rest hr hp ho hm =>
    exact Or.inl (.started r hr hm (barrier_open hJ hP ha hs' hr hp (by rw [ho]; simp) rfl))
  | finish r k rest hr hp ho hm =>
    exact Or.inl (.finish r hr hm (barrier_open hJ hP ha hs' hr hp (by rw [ho]; simp) rfl))
  | sent r k rest v hr hp ho hm hd => exact Or.inl (.sent r hr hm hd)
  | pack r d bytes hr hd hb hm => exact Or.inl (.pack r d bytes hr hd hm)
  | send r hr hb hm => exact Or.inl (.send r hr hm)
  | listen r hr hm A B m hnet hdst =>
    exact Or.inl (.listen r hr (hm.elim Or.inr (fun x => Or.inl x.1)) A B m hnet hdst)

theorem phase_reach (hJ : Script J K) (hP : JobRuns J N K P) {st : State α V} (h : Reach J P N K junk n st) :
    ∃ n', Phase.Reach N (starts J K) n' st.user := by
  induction h with
  | init => exact ⟨0, .init⟩
  | step h' hs ih =>
    obtain ⟨n', hn'⟩ := ih
    rcases phase_step hJ hP h' hs with h1 | h1
    · exact ⟨n' + 1, .step hn' h1⟩
    · exact ⟨n', by rw [h1]; exact hn'⟩

/-- every step counts in one of the two parts -/
theorem both_reach (hJ : Script J K) (hP : JobRuns J N K P) {st : State α V} (h : Reach J P N K junk n st) :
    ∀ fin : Nat → List V, (∀ r, st.gave r <+: fin r) → ∃ n1 n2, n ≤ n1 + n2 ∧
      Seq.Steps (callsOf J junk fin) N n1 (Seq.initial P N K junk) st.coll ∧ Phase.Reach N (starts J K) n2 st.user := by
  induction h with
  | init => intro fin _; exact ⟨0, 0, by omega, .refl _, .init⟩
  | step h' hs ih =>
    intro fin hfin
    obtain ⟨n1, n2, hn, h1, h2⟩ := ih fin (fun r => (gave_step hs r).trans (hfin r))
    rcases seq_step (at_reach hJ h') hs hfin with h3 | ⟨h3, h4⟩
    · rcases phase_step hJ hP h' hs with h5 | h5
      · exact ⟨n1 + 1, n2 + 1, by omega, .tail h1 h3, .step h2 h5⟩
      · exact ⟨n1 + 1, n2, by omega, .tail h1 h3, by rw [h5]; exact h2⟩
    · exact ⟨n1, n2 + 1, by omega, by rw [h3]; exact h1, .step h2 (h4 _)⟩

end Verif.Pcu.Whole
