import Verif.Agi.CApiModel
import Verif.Agi.MigProps
import Verif.Agi.AnyProps
import Verif.Agi.MigWitness
/-!
# Property C65: the C interface builds the same graphs and returns the partition in the caller's arrays
-/
namespace Verif.Agi

/-! ## specification -/

/-- the array begins with the list -/
def Begins {α : Type} (a : Mem α) (l : List α) : Prop := ∀ k (h : k < l.length), a[k]? = some (some l[k])

/-- the arguments say what the input says (all weights given) and name an owner for every ghost -/
structure CArgs.Says (a : CArgs) (i : Input) (own : Gid → Nat) : Prop where
  hyper : a.isHg = i.hyper
  nverts : a.nverts = i.verts.length
  verts : Begins a.verts i.verts
  wlen : i.wgts.length = i.verts.length
  wgts : Begins a.wgts i.wgts
  types : a.edges.length = i.types.length
  edges : ∀ t (h : t < a.edges.length) (h' : t < i.types.length),
    a.edges[t].nedges = i.types[t].ids.length ∧ a.edges[t].npins = i.types[t].pins.flatten.length ∧
    i.types[t].pins.length = i.types[t].ids.length ∧ i.types[t].wgts.length = i.types[t].ids.length ∧
    Begins a.edges[t].edges i.types[t].ids ∧ Begins a.edges[t].degs (i.types[t].pins.map List.length) ∧
    Begins a.edges[t].wgts i.types[t].wgts ∧ Begins a.edges[t].pins i.types[t].pins.flatten
  ghosts : ∃ vs : List Gid, vs.length = a.nghosts ∧ Begins a.ghosts vs ∧ Begins a.owners (vs.map (fun v => (own v : Int))) ∧
    ∀ v ∈ i.allPins, v ∉ i.verts → v ∈ vs

/-- the keys of a map in some order of iteration -/
def KeysOf {α : Type} (m : GMap α) (keys : List Gid) : Prop := keys.Nodup ∧ ∀ v, v ∈ keys ↔ m v ≠ none

/-! ## arrays -/

theorem vecOf_begins {α : Type} {a : Mem α} {l : List α} (h : Begins a l) {n : Nat} (hn : n = l.length) : vecOf a n = .ok l := by
  subst hn
  unfold vecOf
  cases l with
  | nil => rfl
  | cons x l =>
    rw [mapM_ok (g := fun k => (x :: l).getD k x)]
    · congr 1
      apply List.ext_getElem
      · simp
      · intro k h1 h2
        rw [List.getElem_map, List.getElem_range, List.getD_eq_getElem?_getD, List.getElem?_eq_getElem h2]
        rfl
    · intro k hk
      have hk := List.mem_range.mp hk
      rw [Mem.load_ok (h k hk), List.getD_eq_getElem?_getD, List.getElem?_eq_getElem hk]
      rfl

theorem capiOwners_spec {ghosts : Mem Gid} {owners : Mem Part} {own : Gid → Nat} {vs : List Gid} (h1 : Begins ghosts vs)
    (h2 : Begins owners (vs.map (fun v => (own v : Int)))) :
    ∃ m, capiOwners ghosts owners vs.length = .ok m ∧ ∀ v, m v = if v ∈ vs then some (own v : Int) else none := by
  unfold capiOwners
  rw [List.range_eq_range']
  obtain ⟨m, e, hm⟩ := range_inv (fun (m : GMap Part) i => do
      let v ← ghosts.load i
      let o ← owners.load i
      return m.put v o) (fun k (m : GMap Part) => ∀ v, m v = if v ∈ vs.take k then some (own v : Int) else none) 0 vs.length (by
    intro k m hk hI
    rw [Nat.zero_add]
    have e2 : owners.load k = .ok (own vs[k] : Int) := by
      apply Mem.load_ok
      rw [h2 k (by simpa using hk), List.getElem_map]
    rw [Mem.load_ok (h1 k hk), Outcome.bind_ok, e2, Outcome.bind_ok]
    refine ⟨_, rfl, ?_⟩
    intro v
    rw [List.take_succ_eq_append_getElem hk]
    simp only [GMap.put, hI v, List.mem_append, List.mem_singleton]
    by_cases hv : v = vs[k]
    · subst hv
      simp
    · rw [if_neg hv]
      simp [hv]) GMap.empty (by intro v; simp [GMap.empty])
  exact ⟨m, e, fun v => by rw [hm v, List.take_length]⟩

/-! ## construction -/

theorem mapM_same {α β : Type} {f g : α → Outcome β} {l : List α} (h : ∀ x ∈ l, f x = g x) : l.mapM f = l.mapM g := by
  induction l with
  | nil => rfl
  | cons a l ih => rw [List.mapM_cons, List.mapM_cons, h a (by simp), ih (fun x hx => h x (by simp [hx]))]

theorem capiBuild_eq {as : List CArgs} {ins : List Input} {own : Gid → Nat} (hl : as.length = ins.length)
    (h : ∀ p (hp : p < as.length) (hp' : p < ins.length), as[p].Says ins[p] own) : capiBuild as = buildAll ins := by
  have hsum : as.map (fun a => (a.nverts : Int)) = ins.map (fun i => (i.verts.length : Int)) := by
    apply List.ext_getElem
    · simp [hl]
    · intro k h1 h2
      simp only [List.getElem_map]
      rw [(h k (by simpa using h1) (by simpa using h2)).nverts]
  unfold capiBuild buildAll
  rw [hsum, hl]
  refine mapM_same ?_
  intro p hp
  have hp := List.mem_range.mp hp
  rw [rd_ok (by omega : p < as.length), rd_ok hp, Outcome.bind_ok, Outcome.bind_ok]
  have hs := h p (by omega) hp
  unfold capiVerts build
  rw [vecOf_begins hs.verts hs.nverts, Outcome.bind_ok, vecOf_begins hs.wgts (by rw [hs.wlen, hs.nverts]), Outcome.bind_ok, hs.hyper]
  congr 1
  funext g
  have step : ∀ (es : List CEdges) (ts : List EdgeInput), es.length = ts.length →
      (∀ t (h : t < es.length) (h' : t < ts.length), ∀ g, capiEdges g es[t] =
        constructEdgesV g ts[t].ids (ts[t].pins.map List.length) ts[t].pins.flatten ts[t].wgts) →
      ∀ g, es.foldlM capiEdges g =
        ts.foldlM (fun g e => constructEdgesV g e.ids (e.pins.map List.length) e.pins.flatten e.wgts) g := by
    intro es
    induction es with
    | nil =>
      intro ts hl _ g
      cases ts with
      | nil => rfl
      | cons => simp at hl
    | cons e es ih =>
      intro ts hl hh g
      cases ts with
      | nil => simp at hl
      | cons t ts =>
        rw [List.foldlM_cons, List.foldlM_cons]
        have h0 := hh 0 (by simp) (by simp) g
        simp only [List.getElem_cons_zero] at h0
        rw [h0]
        congr 1
        funext g'
        exact ih ts (by simpa using hl) (fun k h1 h2 g => by
          have := hh (k + 1) (by simp; omega) (by simp; omega) g
          simpa using this) g'
  refine step _ _ hs.types ?_ g
  intro t h1 h2 g
  obtain ⟨a1, a2, a3, a4, a5, a6, a7, a8⟩ := hs.edges t h1 h2
  unfold capiEdges
  rw [vecOf_begins a5 a1, Outcome.bind_ok, vecOf_begins a6 (by rw [List.length_map]; omega), Outcome.bind_ok,
    vecOf_begins a7 (by omega), Outcome.bind_ok, vecOf_begins a8 a2, Outcome.bind_ok]

/-- **C65, construction.**  The calls of the C interface make exactly the graphs of the C++ calls on the lists the arrays
begin with, whatever follows in the arrays, for owner maps that know every ghost. -/
theorem c65_build {as : List CArgs} {ins : List Input} {own : Gid → Nat} (hl : as.length = ins.length)
    (h : ∀ p (hp : p < as.length) (hp' : p < ins.length), as[p].Says ins[p] own) (o1 o2 : Nat → List Nat) :
    ∃ owns, OwnMaps ins own owns ∧ capiSetup as o1 o2 = (do let gs ← buildAll ins; constructGhosts gs owns o1 o2) := by
  obtain ⟨owns, e, hol, ho⟩ := mapM_idx (f := fun a : CArgs => capiOwners a.ghosts a.owners a.nghosts)
    (fun p m => ∀ hp : p < ins.length, ∀ v ∈ ins[p].allPins, v ∉ ins[p].verts → m v = some (own v : Int)) as (by
      intro p hp
      have hp' : p < ins.length := by omega
      obtain ⟨vs, h1, h2, h3, h4⟩ := (h p hp hp').ghosts
      obtain ⟨m, e, hm⟩ := capiOwners_spec h2 h3
      rw [← h1]
      refine ⟨m, e, fun _ v hv hv' => ?_⟩
      rw [hm v, if_pos (h4 v hv hv')])
  refine ⟨owns, ⟨by omega, fun p hp hp' v hv hv' => ho p hp' hp v hv hv'⟩, ?_⟩
  unfold capiSetup
  rw [capiBuild_eq hl h, e]
  rfl

/-- without a weight array the construction is undefined: the C interface cannot ask for the default weights -/
theorem c65_null_weights_ub (g : Graph) (isHg : Bool) (verts : Mem Gid) {l : List Gid} (hv : Begins verts l) (hne : l ≠ []) (total : Int) :
    capiVerts g isHg verts [] l.length total = .ub := by
  unfold capiVerts
  rw [vecOf_begins hv rfl, Outcome.bind_ok]
  cases l with
  | nil => exact absurd rfl hne
  | cons a l =>
    unfold vecOf
    rw [List.length_cons, List.range_succ_eq_map, List.mapM_cons]
    rfl

/-! ## the partition -/

/-- **C65, the arrays.**  With arrays of at least `nverts` entries: the call is stopped by the assertion unless `nverts` is
the number of entries of the map; otherwise the first `nverts` entries are the keys in the order of iteration, each with
its value, and the rest of the arrays is untouched. -/
theorem c65_fill (m : GMap Nat) {keys : List Gid} (hk : KeysOf m keys) (verts : Mem Gid) (parts : Mem Nat) (nverts : Nat)
    (hv : nverts ≤ verts.length) (hp : nverts ≤ parts.length) :
    (keys.length ≠ nverts → capiFill m keys verts parts nverts = .fail) ∧
    (keys.length = nverts → ∃ ps : List Nat, ps.length = keys.length ∧ (∀ k (h : k < keys.length) (h' : k < ps.length), m keys[k] = some ps[k]) ∧
      capiFill m keys verts parts nverts = .ok (Mem.ofList keys ++ verts.drop nverts, Mem.ofList ps ++ parts.drop nverts)) := by
  refine ⟨fun h => by unfold capiFill; rw [if_pos h], fun h => ?_⟩
  subst h
  obtain ⟨r, e, ps, h1, h2, h3, h4, h5⟩ := foldlM_inv (capiEntry m) (fun pre (s : Mem Gid × Mem Nat × Nat) => ∃ ps : List Nat,
      ps.length = pre.length ∧ (∀ k (h : k < pre.length) (h' : k < ps.length), m pre[k] = some ps[k]) ∧
      s.1 = Mem.ofList pre ++ verts.drop pre.length ∧ s.2.1 = Mem.ofList ps ++ parts.drop pre.length ∧ s.2.2 = pre.length) keys (by
    intro pre x s hpre hI
    obtain ⟨ps, h1, h2, h3, h4, h5⟩ := hI
    have hx : x ∈ keys := hpre.subset (by simp)
    have hlen : pre.length + 1 ≤ keys.length := by
      have := hpre.length_le
      simpa using this
    have hmx := (hk.2 x).mp hx
    obtain ⟨y, hy⟩ := Option.ne_none_iff_exists'.mp hmx
    have sto : ∀ {α : Type} (l : List α) (a : Mem α) (z : α), l.length < a.length →
        Mem.store (Mem.ofList l ++ a.drop l.length) l.length z = .ok (Mem.ofList (l ++ [z]) ++ a.drop (l.length + 1)) := by
      intro α l a z hl
      rw [Mem.store_ok _ (by simp [Mem.ofList]; omega)]
      congr 1
      rw [List.set_append_right _ _ (by simp [Mem.ofList])]
      simp only [Mem.length_ofList, Nat.sub_self]
      rw [List.drop_eq_getElem_cons hl, List.set_cons_zero]
      simp [Mem.ofList]
    unfold capiEntry
    rw [hy]
    simp only [deref, Outcome.ofOption_some]
    rw [Outcome.bind_ok, h3, h4, h5, sto pre verts x (by omega), Outcome.bind_ok]
    have := sto ps parts y (by omega)
    rw [h1] at this
    rw [this, Outcome.bind_ok]
    refine ⟨_, rfl, ps ++ [y], by simp [h1], ?_, by simp, by simp, by simp⟩
    intro k hk1 hk2
    by_cases hkk : k < pre.length
    · rw [List.getElem_append_left hkk, List.getElem_append_left (by omega)]
      exact h2 k hkk (by omega)
    · have : k = pre.length := by simp at hk1; omega
      subst this
      simp only [List.getElem_concat_length]
      rw [List.getElem_append_right (by omega)]
      simpa [h1] using hy) (verts, parts, 0) ⟨[], rfl, by intro k h; simp at h, by simp [Mem.ofList], by simp [Mem.ofList], rfl⟩
  refine ⟨ps, h1, h2, ?_⟩
  unfold capiFill
  rw [if_neg (by simp), e, Outcome.bind_ok, h3, h4]
  rfl

/-- arrays with fewer entries than the map are overrun -/
theorem c65_short_ub (m : GMap Nat) {keys : List Gid} (hk : KeysOf m keys) (verts : Mem Gid) (parts : Mem Nat)
    (hv : verts.length < keys.length) (hp : verts.length ≤ parts.length) :
    capiFill m keys verts parts keys.length = .ub := by
  have key : ∀ (suf : List Gid) (vs : Mem Gid) (ps : Mem Nat) (i : Nat), (∀ k ∈ suf, m k ≠ none) → vs.length ≤ ps.length →
      i ≤ vs.length → vs.length < i + suf.length → suf.foldlM (capiEntry m) (vs, ps, i) = .ub := by
    intro suf
    induction suf with
    | nil => intro vs ps i _ _ h1 h2; simp at h2; omega
    | cons x suf ih =>
      intro vs ps i hm hl h1 h2
      rw [List.foldlM_cons]
      obtain ⟨y, hy⟩ := Option.ne_none_iff_exists'.mp (hm x (by simp))
      unfold capiEntry
      rw [hy]
      simp only [deref, Outcome.ofOption_some]
      rw [Outcome.bind_ok]
      by_cases hi : i < vs.length
      · rw [Mem.store_ok _ hi, Outcome.bind_ok, Mem.store_ok _ (show i < ps.length by omega), Outcome.bind_ok]
        refine ih _ _ _ (fun k hk => hm k (by simp [hk])) (by simpa using hl) (by simp; omega) ?_
        simp only [List.length_set, List.length_cons] at h2 ⊢
        omega
      · have : Mem.store vs i x = .ub := by unfold Mem.store; rw [if_neg hi]
        rw [this]
        rfl
  unfold capiFill
  rw [if_neg (by simp), key keys verts parts 0 (fun k hk' => (hk.2 k).mp hk') hp (by omega) (by omega)]
  rfl

/-- the interface, then `setOriginalOwners` (as `cengpar_balance` does), is the set-up of the other properties -/
theorem capi_setupAll {as : List CArgs} {ins : List Input} {own : Gid → Nat} (hl : as.length = ins.length) (hwf : ∀ i ∈ ins, i.WF)
    (h : ∀ p (hp : p < as.length) (hp' : p < ins.length), as[p].Says ins[p] own) (o1 o2 : Nat → List Nat) :
    ∃ owns, OwnMaps ins own owns ∧
      (do let gs ← capiSetup as o1 o2; return gs.map Graph.setOriginalOwners) = setupAll ins none owns o1 o2 := by
  obtain ⟨owns, h1, h2⟩ := c65_build hl h o1 o2
  refine ⟨owns, h1, ?_⟩
  obtain ⟨gs, e, hb⟩ := buildAll_spec ins hwf
  rw [h2]
  unfold setupAll
  rw [e, Outcome.bind_ok, Outcome.bind_ok]
  have : (gs.zip ins).mapM (fun x => x.1.giveCoords x.2.verts none) = .ok gs := by
    rw [mapM_ok (g := fun x : Graph × Input => x.1) (f := fun x => x.1.giveCoords x.2.verts none) (fun x _ => rfl)]
    congr 1
    rw [List.map_fst_zip]
    rw [hb.1]; exact Nat.le_refl _
  rw [this, Outcome.bind_ok]

theorem fill_tells {m : GMap Nat} {vs : List Gid} (hnd : vs.Nodup) {f : Gid → Nat}
    (hm : ∀ v, (v ∈ vs → m v = some (f v)) ∧ (v ∉ vs → m v = none)) {keys : List Gid} (hk : KeysOf m keys)
    (verts : Mem Gid) (parts : Mem Nat) (n : Nat) (hv : n ≤ verts.length) (hp : n ≤ parts.length) :
    (n ≠ vs.length → capiFill m keys verts parts n = .fail) ∧
    (n = vs.length → ∃ ks : List Gid, ks.Perm vs ∧
      capiFill m keys verts parts n = .ok (Mem.ofList ks ++ verts.drop n, Mem.ofList (ks.map f) ++ parts.drop n)) := by
  have hperm : keys.Perm vs := by
    refine (List.perm_ext_iff_of_nodup hk.1 hnd).mpr ?_
    intro v
    rw [hk.2 v]
    constructor
    · intro hn
      by_contra hc
      exact hn ((hm v).2 hc)
    · intro hmem
      rw [(hm v).1 hmem]; simp
  obtain ⟨f1, f2⟩ := c65_fill m hk verts parts n hv hp
  have hlen := hperm.length_eq
  refine ⟨fun hne => f1 (fun hc => hne (by omega)), fun hn => ?_⟩
  obtain ⟨ps, p1, p2, p3⟩ := f2 (by omega)
  refine ⟨keys, hperm, ?_⟩
  rw [p3]
  have : ps = keys.map f := by
    apply List.ext_getElem
    · simp [p1]
    · intro k h1 h2
      have hk' : k < keys.length := by simpa using h2
      rw [List.getElem_map]
      have := p2 k hk' h1
      rw [(hm _).1 (hperm.mem_iff.mp (List.getElem_mem hk'))] at this
      exact (Option.some.inj this).symm
  rw [this]

/-- **C65, the whole way (hypergraphs with one edge type).**  Every part hands its hypergraph to the C interface, the
original owners are recorded (as `cengpar_balance` does), vertices move in any number of migrations, and every part asks
for the partition with any arrays that are long enough, for every arrival order and every order of the map: with another
number than that of the vertices it handed over the call stops at the assertion; with this number its arrays hold each of
these vertices once, next to it the part where it is now, and beyond that what they held. -/
theorem c65_partition_partial {es : List HEdge} {ins : List Input} {own : Gid → Nat} {as : List CArgs} {o1 o2 : Nat → List Nat}
    (hd : HDist [es] ins own) (hids : (es.map HEdge.id).Nodup) (hsv : ∃ i ∈ ins, i.verts ≠ []) (ho1 : Orders ins.length o1)
    (ho2 : Orders ins.length o2) (hl : as.length = ins.length)
    (h : ∀ p (hp : p < as.length) (hp' : p < ins.length), as[p].Says ins[p] own) (rs : List Round)
    (hr : RoundsOk (allVerts ins) ins.length false own rs) {ord : Nat → List Nat} (ho : Orders ins.length ord) :
    ∃ gs0 gs maps, capiSetup as o1 o2 = .ok gs0 ∧ migrateRounds (gs0.map Graph.setOriginalOwners) rs = .ok gs ∧
      getPartition gs ord = .ok maps ∧ maps.length = ins.length ∧
      ∀ q (hq : q < maps.length) (hq' : q < ins.length) (keys : List Gid), KeysOf maps[q] keys →
        ∀ (verts : Mem Gid) (parts : Mem Nat) (n : Nat), n ≤ verts.length → n ≤ parts.length →
          (n ≠ ins[q].verts.length → capiFill maps[q] keys verts parts n = .fail) ∧
          (n = ins[q].verts.length → ∃ vs : List Gid, vs.Perm ins[q].verts ∧
            capiFill maps[q] keys verts parts n =
              .ok (Mem.ofList vs ++ verts.drop n, Mem.ofList (vs.map (placeAll own rs)) ++ parts.drop n)) := by
  obtain ⟨owns, hown, e0⟩ := capi_setupAll hl hd.wf h o1 o2
  have hst : Start es ins own owns o1 o2 := ⟨hd, hids, hsv, hown, ho1, ho2⟩
  obtain ⟨gs0, gs, maps, e1, e2, e3, e4, e5⟩ := c21_partition_partial hst none rs hr ho
  rw [e1, bind_ok_iff] at e0
  obtain ⟨gs1, e6, e7⟩ := e0
  have e7 := Outcome.ok.inj e7
  refine ⟨gs1, gs, maps, e6, by rw [e7]; exact e2, e3, e4, ?_⟩
  exact fun q hq hq' keys hk verts parts n hv hp => fill_tells (hd.wf _ (List.getElem_mem hq')).1 (fun v => e5 q hq hq' v) hk verts parts n hv hp

/-- **C65, any graph.**  The same for every graph, traditional or not and with any number of types, if the set-up and the
migrations return. -/
theorem c65_any_partial {ins : List Input} {own : Gid → Nat} {as : List CArgs} {o1 o2 : Nat → List Nat}
    (hpl : Placed ins own) (hwf : ∀ i ∈ ins, i.WF) (hl : as.length = ins.length)
    (h : ∀ p (hp : p < as.length) (hp' : p < ins.length), as[p].Says ins[p] own) (rs : List Round)
    (hr : RoundsOk (allVerts ins) ins.length false own rs) {ord : Nat → List Nat} (ho : Orders ins.length ord)
    {gs0 gs : List Graph} (e0 : capiSetup as o1 o2 = .ok gs0) (e : migrateRounds (gs0.map Graph.setOriginalOwners) rs = .ok gs) :
    ∃ maps, getPartition gs ord = .ok maps ∧ maps.length = ins.length ∧
      ∀ q (hq : q < maps.length) (hq' : q < ins.length) (keys : List Gid), KeysOf maps[q] keys →
        ∀ (verts : Mem Gid) (parts : Mem Nat) (n : Nat), n ≤ verts.length → n ≤ parts.length →
          (n ≠ ins[q].verts.length → capiFill maps[q] keys verts parts n = .fail) ∧
          (n = ins[q].verts.length → ∃ vs : List Gid, vs.Perm ins[q].verts ∧
            capiFill maps[q] keys verts parts n =
              .ok (Mem.ofList vs ++ verts.drop n, Mem.ofList (vs.map (placeAll own rs)) ++ parts.drop n)) := by
  obtain ⟨owns, hown, e1⟩ := capi_setupAll hl hwf h o1 o2
  rw [e0, Outcome.bind_ok] at e1
  obtain ⟨maps, e3, e4, e5⟩ := c21_any_partial (co := none) hpl hown.1 hr e1.symm e ho
  exact ⟨maps, e3, e4, fun q hq hq' keys hk verts parts n hv hp =>
    fill_tells (hwf _ (List.getElem_mem hq')).1 (fun v => e5 q hq hq' v) hk verts parts n hv hp⟩

/-! ## a case -/

/-- the hypergraph of the other samples, with its weights written out -/
def capiIn0 : Input := { hyper := true, verts := [1], wgts := [3], types := [⟨[100, 101], [[1, 2], [1]], [1, 1]⟩] }
def capiIn1 : Input := { hyper := true, verts := [2, 3], wgts := [4, 5], types := [⟨[102, 100], [[2, 3], [1, 2]], [1, 1]⟩] }
def capiWorld : List Input := [capiIn0, capiIn1]

theorem capiWorld_dist : HDist sampleHG capiWorld sampleOwn := by
  refine ⟨?_, by decide, ?_, ?_, by decide, ?_, ?_⟩
  · intro i hi
    simp only [capiWorld, List.mem_cons, List.not_mem_nil, or_false] at hi
    rcases hi with rfl | rfl
    · refine ⟨by decide, by decide, ?_⟩
      intro e he
      simp only [capiIn0, capiIn1, List.mem_cons, List.not_mem_nil, or_false] at he
      subst he; exact ⟨by decide, by decide, by decide⟩
    · refine ⟨by decide, by decide, ?_⟩
      intro e he
      simp only [capiIn0, capiIn1, List.mem_cons, List.not_mem_nil, or_false] at he
      subst he; exact ⟨by decide, by decide, by decide⟩
  · decide
  · decide
  · decide
  · intro p hp t ht ht'
    have h1 : p = 0 ∨ p = 1 := by simp [capiWorld] at hp; omega
    have h2 : t = 0 := by simp [sampleHG] at ht'; exact ht'
    subst h2
    rcases h1 with rfl | rfl
    · decide +revert
    · decide +revert

/-- the arrays of the two callers; those of the first are longer than needed and its ghost is named twice -/
def capiArg0 : CArgs :=
  { isHg := true, verts := Mem.ofList [1, 77], wgts := Mem.ofList [3], nverts := 1, edges := [⟨Mem.ofList [100, 101], Mem.ofList [2, 1], Mem.ofList [1, 1], Mem.ofList [1, 2, 1], 2, 3⟩], ghosts := Mem.ofList [2, 2, 8], owners := Mem.ofList [1, 1, 0], nghosts := 2 }
def capiArg1 : CArgs :=
  { isHg := true, verts := Mem.ofList [2, 3], wgts := Mem.ofList [4, 5], nverts := 2, edges := [⟨Mem.ofList [102, 100], Mem.ofList [2, 2], Mem.ofList [1, 1], Mem.ofList [2, 3, 1, 2], 2, 4⟩], ghosts := Mem.ofList [1], owners := Mem.ofList [0], nghosts := 1 }
def capiArgs : List CArgs := [capiArg0, capiArg1]

instance {α : Type} [DecidableEq α] (a : Mem α) (l : List α) : Decidable (Begins a l) :=
  inferInstanceAs (Decidable (∀ k (h : k < l.length), a[k]? = some (some l[k])))

theorem capiArg0_says : capiArg0.Says capiIn0 sampleOwn := by
  refine ⟨rfl, rfl, by decide +kernel, rfl, by decide +kernel, rfl, ?_, ⟨[2, 2], rfl, by decide +kernel, by decide +kernel, by decide +kernel⟩⟩
  intro t ht ht'
  have : t = 0 := by simp [capiArg0] at ht; exact ht
  subst this
  refine ⟨rfl, rfl, rfl, rfl, ?_, ?_, ?_, ?_⟩
  all_goals (decide +revert +kernel)

theorem capiArg1_says : capiArg1.Says capiIn1 sampleOwn := by
  refine ⟨rfl, rfl, by decide +kernel, rfl, by decide +kernel, rfl, ?_, ⟨[1], rfl, by decide +kernel, by decide +kernel, by decide +kernel⟩⟩
  intro t ht ht'
  have : t = 0 := by simp [capiArg1] at ht; exact ht
  subst this
  refine ⟨rfl, rfl, rfl, rfl, ?_, ?_, ?_, ?_⟩
  all_goals (decide +revert +kernel)

theorem capiArgs_says : ∀ p (hp : p < capiArgs.length) (hp' : p < capiWorld.length), capiArgs[p].Says capiWorld[p] sampleOwn := by
  intro p hp hp'
  have h1 : p = 0 ∨ p = 1 := by simp [capiWorld] at hp'; omega
  rcases h1 with rfl | rfl
  · exact capiArg0_says
  · exact capiArg1_says

theorem capiRounds_ok : RoundsOk (allVerts capiWorld) capiWorld.length false sampleOwn sampleRounds := by
  refine ⟨⟨?_, sampleEnv_ok _⟩, ⟨?_, sampleEnv_ok _⟩, trivial⟩
  · intro p hp v d hv
    have h1 : p = 0 ∨ p = 1 := by simp [capiWorld] at hp; omega
    rcases h1 with rfl | rfl
    · simp at hv
    · simp at hv
      obtain ⟨rfl, rfl⟩ := hv
      decide
  · intro p hp v d hv
    have h1 : p = 0 ∨ p = 1 := by simp [capiWorld] at hp; omega
    rcases h1 with rfl | rfl
    · simp at hv
      have : (v = 1 ∧ d = 0) ∨ (v = 2 ∧ d = 1) ∨ (v = 1 ∧ d = 1) := by omega
      rcases this with ⟨rfl, rfl⟩ | ⟨rfl, rfl⟩ | ⟨rfl, rfl⟩ <;> decide
    · simp at hv
      obtain ⟨rfl, rfl⟩ := hv
      decide

example :=
  c65_partition_partial capiWorld_dist (by decide) ⟨capiWorld[0], List.getElem_mem _, by decide⟩ orders_two.1 orders_two.2 rfl
    capiArgs_says sampleRounds capiRounds_ok orders_two.1

/-- vertices 2 and 3 were handed over by part 1; after the migrations 2 is still there and 3 is on part 0; the third entries stay -/
example : (do
    let gs ← capiSetup capiArgs twoOrder flipOrder
    let gs ← migrateRounds (gs.map Graph.setOriginalOwners) sampleRounds
    let maps ← getPartition gs twoOrder
    let m ← rd maps 1
    capiFill m [3, 2] (Mem.ofList [7, 7, 7]) (Mem.ofList [9, 9, 9]) 2) =
      .ok (Mem.ofList [3, 2, 7], Mem.ofList [0, 1, 9]) := by decide +kernel

end Verif.Agi
