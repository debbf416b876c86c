import Verif.Part.SessionModel
import Verif.Part.PwProps
import Verif.Part.SplitProps
import Verif.Part.AfterProps
import Verif.Agi.ResetProps
/-!
# Property C76: whole sessions

Specification: `Has` (a part lists a vertex), `Call.Legal` (what the caller of a function has to provide, in terms of what the graphs
show), `Call.Effect` (what a single call does), `Call.Records` (the calls that record the original owners anew).
-/
namespace Verif.Part
open Verif.Agi

/-! ## specification -/

/-- part `p` lists vertex `v` among its vertices -/
def Has (gs : List Graph) (p : Nat) (v : Gid) : Prop := ∃ g vs, gs[p]? = some g ∧ g.localGids = .ok vs ∧ v ∈ vs

/-- what the caller has to provide.  `G` is the hypergraph (its original owners are not used). -/
def Call.Legal (G : GG) (gs : List Graph) : Call → Prop
  | .migrate r => (∀ p, p < gs.length → ∀ v d, GOp.insert v d ∈ r.ops p → Has gs p v ∧ 0 ≤ d ∧ d < (gs.length : Int)) ∧
      EnvOk gs.length G.co.isSome r.env
  | .balance par env I => ParOk par I ∧ (∀ k, (env k).Ok gs.length G.co.isSome) ∧ Weighable G ∧
      (par.queue.dist = true → NoSmallIsland G)
  | .balanceParts par env I => ParOk par I ∧ (∀ k, (env.step k).Ok gs.length G.co.isSome) ∧ (∀ k, (env.start k).Ok gs.length) ∧
      Weighable G ∧ (par.queue.dist = true → NoSmallIsland G) ∧
      ∀ d ∈ I.priorities, (gs.length : Rat) * gTotal G d < 2147483648
  | .split n ranks meth s pm => SplitOk n gs.length ranks meth G.co.isSome s ∧ PartitionerOk pm
  | .reset => True
  | .reload c ord _ _ o1 o2 => Io.FitsG c G gs.length ∧ (∀ l, (ord l).Perm l) ∧ Orders gs.length o1 ∧ Orders gs.length o2

/-- every call finds what it needs -/
def Session (G : GG) : List Graph → List Call → Prop
  | _, [] => True
  | gs, c :: cs => c.Legal G gs ∧ ∀ gs', c.run gs = .ok gs' → Session G gs' cs

/-- the calls that record where the vertices are as their original owners -/
def Call.Records : Call → Bool
  | .reset => true
  | .reload .. => true
  | _ => false

/-- the number of parts after a call on `n` parts -/
def Call.parts (n : Nat) : Call → Nat
  | .split m .. => m
  | _ => n

/-- what a single call does to the parts -/
def Call.Effect (G : GG) (gs gs' : List Graph) : Call → Prop
  | .migrate r => ∀ p v, Has gs p v → Has gs' (((plannedG v (r.ops p).reverse).map Int.toNat).getD p) v
  | .balance par env I => ∃ b cs step, Part.balance (diffMoves par env) I gs = .ok (b, cs, step) ∧ gs' = b.gs ∧
      ∀ c ∈ cs, CritKept G gs.length I.countGhosts gs' c
  | .balanceParts par env I => ∃ b cs step, pwBalance par env I gs = .ok (b, cs, step) ∧ gs' = b.gs ∧
      ∀ c ∈ cs, CritKept G gs.length I.countGhosts gs' c
  | .split n _ meth s pm => ∀ p g vs, gs[p]? = some g → g.localGids = .ok vs →
      ∀ u (hu : u < vs.length), ∃ r, Chosen n gs meth s pm p u r ∧ Has gs' r vs[u]
  | .reset => ∀ p v, Has gs p v → Has gs' p v
  | .reload .. => ∀ p v, Has gs p v → Has gs' p v

/-! ## proof -/

section
variable {G : GG} {n : Nat} {own : Gid → Nat} {gs : List Graph}

theorem part_has_iff {G : GG} (h : HoldsG G n own gs) {p : Nat} {v : Gid} : Has gs p v ↔ v ∈ G.verts ∧ own v = p := by
  obtain ⟨gr, I, GH, rfl, hG, hd⟩ := h
  constructor
  · rintro ⟨g, vs, h1, h2, h3⟩
    obtain ⟨hp, h4⟩ := List.getElem?_eq_some_iff.mp h1
    have hp' : p < n := by simpa using hp
    simp only [List.getElem_map, List.getElem_range] at h4
    subst h4
    rw [(hd p hp').gids] at h2
    injection h2 with h2
    subst h2
    exact ((hd p hp').inv.verts v).mp h3
  · rintro ⟨h1, rfl⟩
    have hp := hG.own v h1
    exact ⟨gr (own v), _, by simp [hp], (hd _ hp).gids, ((hd _ hp).inv.verts v).mpr ⟨h1, rfl⟩⟩

theorem crit_same {G : GG} (oo : Gid → Part) {cg : Bool} {c : CritRec} (h : CritKept (withOO G oo) n cg gs c) :
    CritKept G n cg gs c := h

/-- one call -/
theorem call_step {home : Gid → Nat} (h : HoldsG (withOO G (fun v => (home v : Int))) n own gs)
    (hh : ∀ v ∈ G.verts, home v < n) {c : Call} (hc : c.Legal G gs) :
    ∃ (gs' : List Graph) (own' home' : Gid → Nat), c.run gs = .ok gs' ∧
      HoldsG (withOO G (fun v => (home' v : Int))) (c.parts n) own' gs' ∧ (∀ v ∈ G.verts, home' v < c.parts n) ∧
      (c.Records = false → home' = home) ∧ (c.Records = true → home' = own ∧ own' = own) ∧ c.Effect G gs gs' := by
  have hlen := holds_length h
  have hhas : ∀ {p v}, Has gs p v ↔ v ∈ G.verts ∧ own v = p := fun {p v} => part_has_iff h
  cases c with
  | migrate r =>
    obtain ⟨h1, h2⟩ := hc
    rw [hlen] at h1 h2
    obtain ⟨gr, I, GH, rfl, hG, hd⟩ := h
    obtain ⟨hG', gr', I', GH', e, hd'⟩ := migrateRounds_spec [r] hG hd
      ⟨⟨fun p hp v d hv => ⟨hhas.mp (h1 p hp v d hv).1, (h1 p hp v d hv).2⟩, h2⟩, trivial⟩
    have e' : migrateRound ((List.range n).map gr) r = .ok ((List.range n).map gr') := by
      have : migrateRounds ((List.range n).map gr) [r] = migrateRound ((List.range n).map gr) r := by
        unfold migrateRounds
        rw [List.foldlM_cons]
        cases migrateRound ((List.range n).map gr) r <;> rfl
      rw [← this]; exact e
    have hold : HoldsG (withOO G (fun v => (home v : Int))) n (place own r.ops) ((List.range n).map gr') :=
      ⟨gr', I', GH', rfl, hG', hd'⟩
    refine ⟨_, _, home, e', hold, hh, fun _ => rfl, fun hf => absurd hf (by simp [Call.Records]), ?_⟩
    intro p v hv
    obtain ⟨hv1, rfl⟩ := hhas.mp hv
    rw [part_has_iff hold]
    refine ⟨hv1, ?_⟩
    unfold place
    cases plannedG v (r.ops (own v)).reverse <;> rfl
  | balance par env I =>
    obtain ⟨h1, h2, h3, h4⟩ := hc
    rw [hlen] at h2
    by_cases hn : 1 < n
    · obtain ⟨b, cs, step, own', e, hh', hk⟩ := balance_world h ⟨h3.verts, h3.edges, h3.small⟩ hn h1 (fun hq => h4 hq) (env := env) h2
      refine ⟨b.gs, own', home, ?_, hh', hh, fun _ => rfl, fun hf => absurd hf (by simp [Call.Records]), b, cs, step, e, rfl, ?_⟩
      · show (Part.balance (diffMoves par env) I gs >>= fun r => pure r.1.gs) = _
        rw [e]; rfl
      · rw [hlen]; exact hk
    · have hn1 : gs.length = 1 := by
        obtain ⟨-, -, -, -, hG, -⟩ := h
        obtain ⟨v, hv⟩ := List.exists_mem_of_ne_nil _ hG.some_vertex
        have := hG.own v hv
        omega
      have e : Part.balance (diffMoves par env) I gs = .ok (⟨gs, SDSlope.new, [], 0, 0⟩, [], 0) := by
        unfold Part.balance; rw [if_pos hn1]
      refine ⟨gs, own, home, ?_, h, hh, fun _ => rfl, fun hf => absurd hf (by simp [Call.Records]), _, _, _, e, rfl, by simp⟩
      show (Part.balance (diffMoves par env) I gs >>= fun r => pure r.1.gs) = _
      rw [e]; rfl
  | balanceParts par env I =>
    obtain ⟨h1, h2, h2', h3, h4, h5⟩ := hc
    rw [hlen] at h2 h2' h5
    by_cases hn : 1 < n
    · obtain ⟨b, cs, step, own', e, hh', hk, -⟩ := pwBalance_world h ⟨h3.verts, h3.edges, h3.small⟩ hn h1 (fun hq => h4 hq)
        (env := env) h2 h2' h5
      refine ⟨b.gs, own', home, ?_, hh', hh, fun _ => rfl, fun hf => absurd hf (by simp [Call.Records]), b, cs, step, e, rfl, ?_⟩
      · show (pwBalance par env I gs >>= fun r => pure r.1.gs) = _
        rw [e]; rfl
      · rw [hlen]; exact hk
    · have hn1 : gs.length = 1 := by
        obtain ⟨-, -, -, -, hG, -⟩ := h
        obtain ⟨v, hv⟩ := List.exists_mem_of_ne_nil _ hG.some_vertex
        have := hG.own v hv
        omega
      have e : pwBalance par env I gs = .ok (⟨gs, SDSlope.new, [], 0, 0⟩, [], 0) := by
        unfold pwBalance; rw [if_pos hn1]
      refine ⟨gs, own, home, ?_, h, hh, fun _ => rfl, fun hf => absurd hf (by simp [Call.Records]), _, _, _, e, rfl, by simp⟩
      show (pwBalance par env I gs >>= fun r => pure r.1.gs) = _
      rw [e]; rfl
  | split m ranks meth s pm =>
    obtain ⟨h1, h2⟩ := hc
    rw [hlen] at h1
    have hset := holds_set h
    obtain ⟨gr, I, GH, rfl, hG, hd⟩ := h
    have hset' : ∀ p, p < n → (gr p).setOriginalOwners = gr p := by
      intro p hp
      have := (hd p hp).origSet
      unfold Graph.setOriginalOwners
      cases hh : (gr p).originalOwners with
      | none => rw [hh] at this; simp at this
      | some a => rfl
    obtain ⟨dest, hlt, hch, gr', I', GH', e2, hd'⟩ := split_spec (n := m) hG (fun p hp => by rw [hset' p hp]; exact hd p hp) true
      (fun p hp => (hd p hp).origSet) h1 h2
    have hold : HoldsG (withOO G (fun v => (home v : Int))) m dest ((List.range m).map gr') :=
      ⟨gr', I', GH', rfl, ⟨hG.some_vertex, hG.nodup, hG.ids, hG.ne, hG.pins, hlt⟩, hd'⟩
    have hle := ranks_le h1.count h1.distinct h1.ranks_lt
    refine ⟨_, dest, home, e2, hold, fun v hv => Nat.lt_of_lt_of_le (hh v hv) hle, fun _ => rfl,
      fun hf => absurd hf (by simp [Call.Records]), ?_⟩
    intro p g vs hg hvs u hu
    obtain ⟨hp, h4⟩ := List.getElem?_eq_some_iff.mp hg
    have hp' : p < n := by simpa using hp
    simp only [List.getElem_map, List.getElem_range] at h4
    subst h4
    rw [(hd p hp').gids] at hvs
    injection hvs with hvs
    subst hvs
    exact ⟨_, hch p hp' u hu, (part_has_iff hold).mpr ⟨(((hd p hp').inv.verts _).mp (List.getElem_mem hu)).1, rfl⟩⟩
  | reset =>
    have hold : HoldsG (withOO G (fun v => (own v : Int))) n own (gs.map Graph.resetOwnership) := by
      obtain ⟨gr, I, GH, rfl, hG, hd⟩ := h
      refine ⟨fun p => (gr p).resetOwnership, I, GH, by rw [List.map_map]; rfl, ?_, fun p hp => reset_done (G := withOO G (fun v => (home v : Int))) (hd p hp)⟩
      exact ⟨hG.some_vertex, hG.nodup, hG.ids, hG.ne, hG.pins, hG.own⟩
    refine ⟨_, own, own, rfl, hold, ?_, fun hf => absurd hf (by simp [Call.Records]), fun _ => ⟨rfl, rfl⟩, ?_⟩
    · obtain ⟨gr, I, GH, rfl, hG, hd⟩ := h
      exact hG.own
    · intro p v hv
      exact (part_has_iff hold).mpr (hhas.mp hv)
  | reload c ord writer reader o1 o2 =>
    obtain ⟨h1, h2, h3, h4⟩ := hc
    rw [hlen] at h1 h3 h4
    obtain ⟨gr, I, GH, rfl, hG, hd⟩ := h
    obtain ⟨files, gr', I', GH', e1, e2, hS⟩ := Io.reload_world hG hd
      ⟨h1.parts, h1.nv, h1.verts, h1.wts, h1.edges, h1.ne, h1.np, h1.coords⟩ h2 writer reader h3 h4
    have hold : HoldsG (withOO G (fun v => (own v : Int))) n own (((List.range n).map gr').map Graph.setOriginalOwners) := by
      refine ⟨fun p => (gr' p).setOriginalOwners, I', GH', by rw [List.map_map]; rfl, ?_, fun p hp => (hS p hp).2⟩
      exact ⟨hG.some_vertex, hG.nodup, hG.ids, hG.ne, hG.pins, hG.own⟩
    refine ⟨_, own, own, ?_, hold, hG.own, fun hf => absurd hf (by simp [Call.Records]), fun _ => ⟨rfl, rfl⟩, ?_⟩
    · show (Io.saveFiles c writer ord ((List.range n).map gr) >>= fun files => Io.loadFiles c reader files o1 o2 >>= fun gs' =>
        pure (gs'.map Graph.setOriginalOwners)) = _
      rw [e1, Outcome.bind_ok, e2, Outcome.bind_ok]
      rfl
    · intro p v hv
      exact (part_has_iff hold).mpr (hhas.mp hv)

theorem runCalls_cons (gs : List Graph) (c : Call) (cs : List Call) :
    runCalls gs (c :: cs) = c.run gs >>= fun gs' => runCalls gs' cs := by
  unfold runCalls
  rw [List.foldlM_cons]

/-- a whole session -/
theorem session_ok : ∀ (cs : List Call) {n : Nat} {own home : Gid → Nat} {gs : List Graph},
    HoldsG (withOO G (fun v => (home v : Int))) n own gs → (∀ v ∈ G.verts, home v < n) → Session G gs cs →
    ∃ (gs' : List Graph) (own' home' : Gid → Nat), runCalls gs cs = .ok gs' ∧
      HoldsG (withOO G (fun v => (home' v : Int))) (cs.foldl Call.parts n) own' gs' ∧
      (∀ v ∈ G.verts, home' v < cs.foldl Call.parts n) ∧ ((∀ c ∈ cs, c.Records = false) → home' = home) ∧
      (∀ c, cs.getLast? = some c → c.Records = true → ∀ v ∈ G.verts, home' v = own' v) := by
  intro cs
  induction cs with
  | nil => intro n own home gs h hh _; exact ⟨gs, own, home, rfl, h, hh, fun _ => rfl, by simp⟩
  | cons c cs ih =>
    intro n own home gs h hh hs
    obtain ⟨gs1, own1, home1, e1, h1, hh1, hr1, hr2, -⟩ := call_step h hh hs.1
    obtain ⟨gs2, own2, home2, e2, h2, hh2, hr3, hr4⟩ := ih h1 hh1 (hs.2 _ e1)
    refine ⟨gs2, own2, home2, by rw [runCalls_cons, e1, Outcome.bind_ok, e2], h2, hh2, ?_, ?_⟩
    · intro hall
      rw [hr3 (fun c hc => hall c (by simp [hc])), hr1 (hall c (by simp))]
    · intro d hd hdr v hv
      cases cs with
      | nil =>
        simp only [List.getLast?_singleton, Option.some.injEq] at hd
        subst hd
        obtain ⟨a, b⟩ := hr2 hdr
        have hrun : gs2 = gs1 := by
          have : runCalls gs1 [] = .ok gs1 := rfl
          rw [this] at e2
          injection e2 with e2
          exact e2.symm
        subst hrun
        have := ((part_has_iff h2).mp ((part_has_iff h1).mpr ⟨hv, rfl⟩)).2
        rw [hr3 (by simp), a, this, b]
      | cons d' cs =>
        exact hr4 d (by rw [List.getLast?_cons_cons] at hd; exact hd) hdr v hv

theorem session_append : ∀ (a : List Call) {b : List Call} {gs : List Graph}, Session G gs (a ++ b) →
    Session G gs a ∧ ∀ ga, runCalls gs a = .ok ga → Session G ga b := by
  intro a
  induction a with
  | nil =>
    intro b gs h
    refine ⟨trivial, fun ga e => ?_⟩
    have : runCalls gs [] = .ok gs := rfl
    rw [this] at e
    injection e with e
    subst e
    exact h
  | cons c a ih =>
    intro b gs h
    refine ⟨⟨h.1, fun gs' e => (ih (h.2 gs' e)).1⟩, fun ga e => ?_⟩
    rw [runCalls_cons] at e
    cases hc : c.run gs with
    | ok gs' =>
      rw [hc, Outcome.bind_ok] at e
      exact (ih (h.2 gs' hc)).2 ga e
    | fail => rw [hc] at e; simp at e
    | ub => rw [hc] at e; simp at e

end

/-! ## the property -/

section
variable {es : List HEdge} {ins : List Input} {own : Gid → Nat} {owns : List (GMap Part)} {o1 o2 : Nat → List Nat}

theorem start_holds (h : Start es ins own owns o1 o2) (co : Option (Gid → Coord)) :
    ∃ gs0, setupAll ins co owns o1 o2 = .ok gs0 ∧
      HoldsG (withOO (startG es ins own co) (fun v => (own v : Int))) ins.length own gs0 := by
  obtain ⟨gr, I0, GH, e0, hd⟩ := setupAll_spec h co
  exact ⟨_, e0, gr, I0, GH, rfl, h.wf co, hd⟩

/-- **C76.**  For every distributed hypergraph with one edge type and every session: any number of migrations, balancing runs of both
kinds, splits onto larger communicators, resets of the original owners, and saving and loading, in any order, each finding what it
needs.  Every call succeeds.  At the end all parts together show the same hypergraph - every vertex on exactly one part with its weight
and coordinates, on every part exactly the hyperedges that touch it, with ids, weights, pins and the part of every pin; the global
counts - and everything that reads a graph reports what it should (`AsNew`).  `getPartition` tells every part where the vertices are
now that it had when the original owners were last recorded: after `a`, where `a` is empty or ends with a reset or a load, and none
of the calls `b` that follow is one.
Missing: several edge types, traditional graphs, Zoltan, and what the single calls leave out (`Call.Legal`). -/
theorem c76_session_partial (h : Start es ins own owns o1 o2) (co : Option (Gid → Coord)) (a b : List Call)
    (hs : ∀ gs0, setupAll ins co owns o1 o2 = .ok gs0 → Session (startG es ins own co) gs0 (a ++ b))
    (ha : ∀ c, a.getLast? = some c → c.Records = true) (hb : ∀ c ∈ b, c.Records = false) :
    ∃ (gs0 ga gs : List Graph) (place home : Gid → Nat), setupAll ins co owns o1 o2 = .ok gs0 ∧ runCalls gs0 a = .ok ga ∧
      runCalls ga b = .ok gs ∧ gs.length = (a ++ b).foldl Call.parts ins.length ∧
      (∀ v ∈ allVerts ins, Has ga (home v) v ∧ home v < gs.length) ∧
      ShowsG (allVerts ins) es (weightOf ins own) (fun v => (home v : Int)) co gs.length place gs ∧
      AsNew (allVerts ins) es (weightOf ins own) gs.length place gs ∧
      ∀ ord, Orders gs.length ord → ∃ maps, getPartition gs ord = .ok maps ∧
        TellsPlaces (allVerts ins) home place gs.length maps := by
  obtain ⟨gs0, e0, h0⟩ := start_holds h co
  obtain ⟨hsa, hsb⟩ := session_append a (hs gs0 e0)
  have hG := h.wf co
  obtain ⟨ga, owna, homea, e1, h1, hh1, hr1, hr2⟩ := session_ok a h0 hG.own hsa
  obtain ⟨gs, place, home, e2, h2, hh2, hr3, -⟩ := session_ok b h1 hh1 (hsb ga e1)
  have hlen := holds_length h2
  rw [← List.foldl_append] at hlen
  have hhome : home = homea := hr3 hb
  refine ⟨gs0, ga, gs, place, home, e0, e1, e2, hlen, ?_, ?_, ?_, ?_⟩
  · intro v hv
    refine ⟨(part_has_iff h1).mpr ⟨hv, ?_⟩, by rw [holds_length h2]; exact hh2 v hv⟩
    rw [hhome]
    cases hl : a.getLast? with
    | some c => exact (hr2 c hl (ha c hl) v hv).symm
    | none =>
      have : a = [] := List.getLast?_eq_none_iff.mp hl
      subst this
      have e3 : runCalls gs0 [] = .ok gs0 := rfl
      rw [e3] at e1
      injection e1 with e1
      subst e1
      rw [hr1 (by simp)]
      exact ((part_has_iff h1).mp ((part_has_iff h0).mpr ⟨hv, rfl⟩)).2
  · rw [holds_length h2]
    obtain ⟨gr, I, GH, rfl, hG2, hd⟩ := h2
    exact shows_done hG2 hd
  · rw [holds_length h2]
    exact asNew_world h2
  · rw [holds_length h2]
    intro ord ho
    obtain ⟨gr, I, GH, rfl, hG2, hd⟩ := h2
    exact partition_done hG2 hd (fun v hv => ⟨rfl, hh2 v hv⟩) ho

/-- **C76, the single calls.**  Whatever a session has done before (`a`), the next call does what it should: a migration brings every
planned vertex where the plan says and leaves the others; a balancing run keeps what it has achieved for every criterion
(`CritKept`); a split brings every vertex to the rank chosen for it; resetting and reloading leave every vertex where it is. -/
theorem c76_call_partial (h : Start es ins own owns o1 o2) (co : Option (Gid → Coord)) (a : List Call) (c : Call)
    (hs : ∀ gs0, setupAll ins co owns o1 o2 = .ok gs0 → Session (startG es ins own co) gs0 (a ++ [c])) :
    ∃ gs0 ga gs, setupAll ins co owns o1 o2 = .ok gs0 ∧ runCalls gs0 a = .ok ga ∧ c.run ga = .ok gs ∧
      c.Effect (startG es ins own co) ga gs := by
  obtain ⟨gs0, e0, h0⟩ := start_holds h co
  obtain ⟨hsa, hsb⟩ := session_append a (hs gs0 e0)
  obtain ⟨ga, owna, homea, e1, h1, hh1, -, -⟩ := session_ok a h0 (h.wf co).own hsa
  obtain ⟨gs, -, -, e2, -, -, -, -, he⟩ := call_step h1 hh1 (hsb ga e1).1
  exact ⟨gs0, ga, gs, e0, e1, e2, he⟩

end

end Verif.Part
