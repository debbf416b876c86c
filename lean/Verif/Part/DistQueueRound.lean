import Verif.Part.DistQueuePull
/-!
# The distance queue: one round of the second search
-/
namespace Verif.Part
open Verif.Agi

/-- the largest set -/
theorem largest_spec {z : Mem Int} {m : Nat} {sz : Nat → Int} (h : Arr z m sz) (hm : 0 < m) :
    ∃ l, largest z m = .ok l ∧ l < m ∧ ∀ j, j < m → sz j ≤ sz l := by
  obtain ⟨l, e, h1, h2⟩ := range_inv (fun l j => do
      let x ← z.load j
      let y ← z.load l
      return if y < x then j else l)
    (fun k l => l < m ∧ ∀ j, j < 1 + k → j < m → sz j ≤ sz l) 1 (m - 1) (by
      intro k l hk ⟨h1, h2⟩
      rw [h.load (show 1 + k < m by omega), Outcome.bind_ok, h.load h1, Outcome.bind_ok]
      refine ⟨_, rfl, ?_⟩
      by_cases hlt : sz l < sz (1 + k)
      · rw [if_pos hlt]
        refine ⟨by omega, fun j hj hjm => ?_⟩
        rcases Nat.lt_or_ge j (1 + k) with hh | hh
        · have := h2 j hh hjm; omega
        · have : j = 1 + k := by omega
          rw [this]
      · rw [if_neg hlt]
        refine ⟨h1, fun j hj hjm => ?_⟩
        rcases Nat.lt_or_ge j (1 + k) with hh | hh
        · exact h2 j hh hjm
        · have : j = 1 + k := by omega
          rw [this]; omega) 0 ⟨hm, fun j hj _ => by
            have : j = 0 := by omega
            rw [this]⟩
  exact ⟨l, e, h1, fun j hj => h2 j (by omega) hj⟩

section
variable {nl N m : Nat} {adj : Nat → List Nat} {Old New : List Nat}

/-- adding `add` to the depths of the edges of the set `l` -/
theorem shiftAll_spec {s : Inputs} {E : List (Nat × Nat)} {par : Nat → Int} {root rk : Nat → Nat} {sz0 lab : Nat → Int}
    {c : Nat} (hS : Seeds s N (Old ++ New)) (hpar : Arr s.parents m par) (hlab : Arr s.labels N lab)
    (huf : Forest m par root rk c) (hln : ∀ e ∈ New, 0 ≤ lab e ∧ lab e < m) {vis : Nat → Int}
    (hA : Arr s.visited N vis) (l : Nat) {add : Int} (hadd : 0 ≤ add) :
    ∃ v, shiftAll Old.length l add s = .ok { s with visited := v } ∧
      Arr v N (fun e => if e ∈ New ∧ root (lab e).toNat = l then vis e + add else vis e) := by
  have hn : s.numSeeds - Old.length = New.length := by rw [hS.num, List.length_append]; omega
  unfold shiftAll
  by_cases h0 : 0 < add
  · rw [if_pos h0, hn]
    obtain ⟨s', e, ⟨v, rfl, hv⟩⟩ := range_inv (shiftEdge l add)
      (fun k s' => ∃ v, s' = { s with visited := v } ∧
        Arr v N (fun e => if e ∈ New.take k ∧ root (lab e).toNat = l then vis e + add else vis e))
      Old.length New.length (by
        rintro k s1 hk ⟨v, rfl, hv⟩
        have hld : s.seeds.load (Old.length + k) = .ok New[k] := by
          rw [hS.load (by rw [List.length_append]; omega), List.getElem_append_right (by omega)]
          congr 1
          simp
        have hlt := hS.lt _ (List.mem_append_right Old (List.getElem_mem hk))
        obtain ⟨l0, l1⟩ := hln _ (List.getElem_mem hk)
        have hr := findRoot_spec huf hpar (s.parents.length + 1) (lab New[k]) l0 l1
          (by rw [hpar.len]; exact huf.fuel (by omega))
        have hnt : New[k] ∉ New.take k := by
          intro hm
          obtain ⟨j, hj, hje⟩ := List.mem_iff_getElem.mp hm
          rw [List.getElem_take] at hje
          have hnd := (List.nodup_append.mp hS.nodup).2.1
          have := (hnd.getElem_inj_iff (hi := by simp at hj; omega) (hj := hk)).mp hje
          simp at hj; omega
        unfold shiftEdge
        simp only
        rw [hld, Outcome.bind_ok, hlab.load hlt, Outcome.bind_ok, if_neg (by omega), hr, Outcome.bind_ok]
        by_cases hrl : root (lab New[k]).toNat = l
        · obtain ⟨v', e', hv'⟩ := hv.store hlt (vis New[k] + add)
          rw [if_pos (by rw [hrl]), hv.load hlt, if_neg (fun h => hnt h.1), Outcome.bind_ok, e', Outcome.bind_ok]
          refine ⟨_, rfl, v', rfl, hv'.congr ?_⟩
          intro e _
          rw [List.take_succ_eq_append_getElem hk]
          by_cases he : e = New[k]
          · subst he; rw [Function.update_self, if_pos ⟨List.mem_append_right _ (List.mem_singleton.mpr rfl), hrl⟩]
          · rw [Function.update_of_ne he]
            simp only [List.mem_append, List.mem_singleton, he, or_false]
        · rw [if_neg (by intro h; exact hrl (by exact_mod_cast h))]
          refine ⟨_, rfl, v, rfl, hv.congr ?_⟩
          intro e _
          rw [List.take_succ_eq_append_getElem hk]
          by_cases he : e = New[k]
          · subst he; rw [if_neg (fun h => hnt h.1), if_neg (fun h => hrl h.2)]
          · simp only [List.mem_append, List.mem_singleton, he, or_false]) s
      ⟨s.visited, rfl, by simpa using hA⟩
    exact ⟨v, e, by simpa using hv⟩
  · rw [if_neg h0]
    refine ⟨s.visited, rfl, hA.congr ?_⟩
    intro e _
    have : add = 0 := by omega
    simp [this]

theorem exists_root {par : Nat → Int} {Ch : List Nat} (hn : Ch.length < rootsOf m par) :
    ∃ k, k < m ∧ par k = (k : Int) ∧ k ∉ Ch := by
  by_contra hc
  push Not at hc
  unfold rootsOf at hn
  rw [List.countP_eq_length_filter] at hn
  have hnd : ((List.range m).filter (fun k => decide (par k = (k : Int)))).Nodup := List.nodup_range.filter _
  have := List.Nodup.subperm hnd (l₂ := Ch) (fun k hk => by
    obtain ⟨h1, h2⟩ := List.mem_filter.mp hk
    exact hc k (List.mem_range.mp h1) (by simpa using h2))
  have := this.length_le
  omega

/-- there are no more roots than that -/
theorem roots_le {par : Nat → Int} {l : List Nat} (hn : l.Nodup) (hl : ∀ r ∈ l, r < m ∧ par r = (r : Int)) :
    l.length ≤ rootsOf m par := by
  unfold rootsOf
  rw [List.countP_eq_length_filter]
  refine (List.Nodup.subperm hn (fun r hr => ?_)).length_le
  rw [List.mem_filter, List.mem_range]
  exact ⟨(hl r hr).1, by simpa using (hl r hr).2⟩

/-- of two sets the larger comes first -/
def Apart (sz sh : Nat → Int) (r r' : Nat) : Prop :=
  (sz r' ≤ sz r ∧ sh r + sz r ≤ sh r') ∨ (sz r ≤ sz r' ∧ sh r' + sz r' ≤ sh r)

/-- the correction adds one offset to all edges of a set, and no offset exceeds what is added to the depth -/
theorem correct_spec {s : Inputs} {vis : Nat → Int} {E : List (Nat × Nat)} {par : Nat → Int} {root rk : Nat → Nat}
    {sz lab : Nat → Int} {c : Nat} (hst : St s N (Old ++ New) vis) (h : Sets s N m New E par root rk sz lab c) :
    ∃ v z add, ∃ sh : Nat → Int, correct Old.length s = .ok ({ s with visited := v, setSize := z }, add) ∧ 0 ≤ add ∧
      (∀ r : Nat, 0 ≤ sh r ∧ sh r ≤ add) ∧
      Arr v N (fun e => if e ∈ New then vis e + sh (root (lab e).toNat) else vis e) ∧
      ∀ r r', r < m → r' < m → par r = (r : Int) → par r' = (r' : Int) → r ≠ r' → Apart sz sh r r' := by
  unfold correct
  by_cases h1 : 1 < s.numSets
  · rw [if_pos h1]
    have hsets := h.sets
    have hcnt := h.uf.cnt
    have hroots : s.numSets.toNat = rootsOf m par := by omega
    obtain ⟨⟨s', add⟩, e, v, z, sh, Ch, hs', hadd, hch, hz, hsz, hsh, hsh0, hv, hnd, hin, hrest, hap⟩ := range_inv (shiftSet Old.length)
      (fun k st => ∃ v z, ∃ sh : Nat → Int, ∃ Ch : List Nat, st.1 = { s with visited := v, setSize := z } ∧ 0 ≤ st.2 ∧ Ch.length = k ∧
        Arr z m (fun j => if j ∈ Ch then 0 else sz j) ∧ (∀ j, j < m → 0 ≤ sz j) ∧
        (∀ r : Nat, 0 ≤ sh r ∧ sh r ≤ st.2) ∧ (∀ r : Nat, r ∉ Ch → sh r = 0) ∧
        Arr v N (fun e => if e ∈ New then vis e + sh (root (lab e).toNat) else vis e) ∧ Ch.Nodup ∧
        (∀ r ∈ Ch, (r < m ∧ par r = (r : Int)) ∧ sh r + sz r ≤ st.2) ∧
        (∀ r ∈ Ch, ∀ j, j < m → j ∉ Ch → sz j ≤ sz r) ∧
        (∀ r ∈ Ch, ∀ r' ∈ Ch, r ≠ r' → Apart sz sh r r')) 0 s.numSets.toNat (by
        rintro k ⟨s1, add⟩ hk ⟨v, z, sh, Ch, hs1, hadd, hch, hz, hsz, hsh, hsh0, hv, hnd, hin, hrest, hap⟩
        simp only at hs1 hadd hsh hin
        subst hs1
        obtain ⟨l, el, hl, hmax⟩ := largest_spec hz (by omega)
        obtain ⟨w, hw, hwr, hwc⟩ := exists_root (m := m) (par := par) (Ch := Ch) (by omega)
        have hlc : l ∉ Ch := by
          intro hlc
          have := hmax w hw
          rw [if_pos hlc, if_neg hwc] at this
          have := h.sz1 w hw hwr
          omega
        have hlr : par l = (l : Int) := by
          by_contra hc
          have h1 := hmax w hw
          rw [if_neg hlc, if_neg hwc, h.sz0 l hl hc] at h1
          have := h.sz1 w hw hwr
          omega
        obtain ⟨v1, e1, hv1⟩ := shiftAll_spec (E := E) (sz0 := sz) (s := { s with visited := v, setSize := z })
          (hst.seeds.of_eq rfl rfl) h.aPar h.aLab h.uf h.labNew hv l hadd
        obtain ⟨z1, e2, hz1⟩ := hz.store hl 0
        have hzl := hz.load hl
        rw [if_neg hlc] at hzl
        refine ⟨({ s with visited := v1, setSize := z1 }, add + sz l), ?_, v1, z1, Function.update sh l add, l :: Ch, rfl, ?_,
          by simp [hch], ?_, hsz, ?_, ?_, ?_, List.nodup_cons.mpr ⟨hlc, hnd⟩, ?_, ?_, ?_⟩
        · unfold shiftSet
          simp only
          rw [(by rw [h.osets]; exact el : largest z s.numOsets = .ok l), Outcome.bind_ok, e1, Outcome.bind_ok]
          simp only
          rw [hzl, Outcome.bind_ok, e2, Outcome.bind_ok]
          rfl
        · have := hsz l hl
          show 0 ≤ add + sz l
          omega
        · apply hz1.congr
          intro j _
          by_cases hj : j = l
          · subst hj; rw [Function.update_self, if_pos (by simp)]
          · rw [Function.update_of_ne hj]
            simp only [List.mem_cons, hj, false_or]
        · intro r
          have := hsz l hl
          show 0 ≤ Function.update sh l add r ∧ Function.update sh l add r ≤ add + sz l
          by_cases hr : r = l
          · subst hr; rw [Function.update_self]; omega
          · rw [Function.update_of_ne hr]
            have := hsh r
            omega
        · intro r hr
          rw [List.mem_cons, not_or] at hr
          rw [Function.update_of_ne hr.1]
          exact hsh0 r hr.2
        · apply hv1.congr
          intro e _
          by_cases he : e ∈ New
          · simp only [he, true_and, if_true]
            by_cases hr : root (lab e).toNat = l
            · rw [if_pos hr, hr, Function.update_self, hsh0 l hlc]; omega
            · rw [if_neg hr, Function.update_of_ne hr]
          · simp only [he, false_and, if_false]
        · intro r hr
          show (r < m ∧ par r = (r : Int)) ∧ Function.update sh l add r + sz r ≤ add + sz l
          rcases List.mem_cons.mp hr with rfl | hr
          · exact ⟨⟨hl, hlr⟩, by rw [Function.update_self]⟩
          · have hne : r ≠ l := fun e => hlc (e ▸ hr)
            obtain ⟨q1, q2⟩ := hin r hr
            have := hsz l hl
            exact ⟨q1, by rw [Function.update_of_ne hne]; omega⟩
        · intro r hr j hj hjc
          rw [List.mem_cons, not_or] at hjc
          rcases List.mem_cons.mp hr with rfl | hr
          · have := hmax j hj
            rw [if_neg hjc.2, if_neg hlc] at this
            exact this
          · exact hrest r hr j hj hjc.2
        · have hold : ∀ r ∈ Ch, Apart sz (Function.update sh l add) r l := by
            intro r hr
            have hne : r ≠ l := fun e => hlc (e ▸ hr)
            left
            rw [Function.update_self, Function.update_of_ne hne]
            exact ⟨hrest r hr l hl hlc, (hin r hr).2⟩
          intro r hr r' hr' hne
          rcases List.mem_cons.mp hr with e1 | h1
          · rcases List.mem_cons.mp hr' with e2 | h2
            · exact absurd (e1.trans e2.symm) hne
            · rw [e1]; exact (hold r' h2).symm
          · rcases List.mem_cons.mp hr' with e2 | h2
            · rw [e2]; exact hold r h1
            · have := hap r h1 r' h2 hne
              unfold Apart at this ⊢
              rw [Function.update_of_ne (show r ≠ l from fun e => hlc (e ▸ h1)),
                Function.update_of_ne (show r' ≠ l from fun e => hlc (e ▸ h2))]
              exact this) (s, 0)
      ⟨s.visited, s.setSize, fun _ => 0, [], rfl, le_refl _, rfl, by simpa using h.aSz, fun j hj => by
          by_cases hp : par j = (j : Int)
          · have := h.sz1 j hj hp; omega
          · rw [h.sz0 j hj hp], fun _ => ⟨le_refl _, le_refl _⟩, fun _ _ => rfl, hst.arr.congr (by intro e _; simp),
          List.nodup_nil, by simp, by simp, by simp⟩
    simp only at hs' hadd hsh hin
    have hall : ∀ r, r < m → par r = (r : Int) → r ∈ Ch := by
      intro r hr hrr
      by_contra hc
      have := roots_le (m := m) (par := par) (l := r :: Ch) (List.nodup_cons.mpr ⟨hc, hnd⟩) (by
        intro x hx
        rcases List.mem_cons.mp hx with rfl | hx
        · exact ⟨hr, hrr⟩
        · exact (hin x hx).1)
      rw [List.length_cons] at this
      omega
    rw [← List.range_eq_range'] at e
    rw [e, hs']
    exact ⟨v, z, add, sh, rfl, hadd, hsh, hv, fun r r' a1 a2 b1 b2 hne => hap r (hall r a1 b1) r' (hall r' a2 b2) hne⟩
  · rw [if_neg h1]
    refine ⟨s.visited, s.setSize, 0, fun _ => 0, rfl, le_refl _, fun _ => ⟨le_refl _, le_refl _⟩,
      hst.arr.congr (by intro e _; simp), ?_⟩
    intro r r' a1 a2 b1 b2 hne
    exfalso
    have := roots_le (m := m) (par := par) (l := [r, r']) (by simp [hne]) (by simp [a1, a2, b1, b2])
    have := h.sets
    have := h.uf.cnt
    simp only [List.length_cons, List.length_nil] at *
    omega

/-- setting up the disjoint sets of a round -/
theorem initSets_spec {s : Inputs} {lab : Nat → Int} {New0 : List Nat} (hS : Seeds s N (Old ++ New0))
    (hlab : Arr s.labels N lab) : ∃ p z lb lab', initSets Old.length s = .ok { s with numOsets := New0.length, numSets := New0.length, parents := p, setSize := z, labels := lb } ∧ Arr p New0.length (fun k => (k : Int)) ∧ Arr z New0.length (fun _ => 1) ∧
      Arr lb N lab' ∧ ∀ k (hk : k < New0.length), lab' New0[k] = (k : Int) := by
  have hn : s.numSeeds - Old.length = New0.length := by rw [hS.num, List.length_append]; omega
  obtain ⟨p, e1, h1⟩ := fill_arr New0.length (fun k => (k : Int))
  obtain ⟨z, e2, h2⟩ := fill_arr New0.length (fun _ => (1 : Int))
  obtain ⟨lb, e3, lab', h3, h4⟩ := range_inv (fun (m : Mem Int) i => do
      let e ← s.seeds.load i
      m.store e ((i : Int) - Old.length))
    (fun k m => ∃ lab', Arr m N lab' ∧ ∀ j (hj : j < New0.length), j < k → lab' New0[j] = (j : Int)) Old.length New0.length (by
      rintro k m hk ⟨lab1, ha, hb⟩
      have hld : s.seeds.load (Old.length + k) = .ok New0[k] := by
        rw [hS.load (by rw [List.length_append]; omega), List.getElem_append_right (by omega)]
        congr 1
        simp
      obtain ⟨m', e', hm'⟩ := ha.store (hS.lt _ (List.mem_append_right Old (List.getElem_mem hk)))
        (((Old.length + k : Nat) : Int) - Old.length)
      refine ⟨m', by rw [hld, Outcome.bind_ok]; exact e', _, hm', ?_⟩
      intro j hj hjk
      by_cases hek : j = k
      · subst hek; rw [Function.update_self]; push_cast; omega
      · have hnd := (List.nodup_append.mp hS.nodup).2.1
        rw [Function.update_of_ne (fun h => hek ((hnd.getElem_inj_iff (hi := hj) (hj := hk)).mp h))]
        exact hb j hj (by omega)) s.labels ⟨lab, hlab, by simp⟩
  refine ⟨p, z, lb, lab', ?_, h1, h2, h3, fun k hk => h4 k hk hk⟩
  unfold initSets
  simp only
  rw [hn, e1, Outcome.bind_ok, e2, Outcome.bind_ok, e3, Outcome.bind_ok]
  rfl

/-- what the traversals need of the graph -/
structure GFacts (g : Graph) (N nl : Nat) (adj pin : Nat → List Nat) : Prop where
  ef : EFacts g N nl adj pin
  af : ∃ et off, g.slot 0 = .ok et ∧ AFacts et nl adj off

/-- either traversal -/
theorem bfs_spec {g : Graph} {pin : Nat → List Nat} {visit : Visit}
    {I : List Nat → (Nat → Int) → List (Nat × Nat) → Inputs → Prop} {New0 : List Nat} {depth : Int} (push : Bool)
    (hF : GFacts g N nl adj pin) (hV : VisitOk visit N Old I) (hOld : ClosedSet nl adj (· ∈ Old))
    (hne : New0 ≠ []) {s : Inputs} {vis : Nat → Int} (hS : Seeds s N (Old ++ New0)) (hA : Arr s.visited N vis)
    (hov : push = false → ∀ e ∈ Old, vis e < depth)
    (hI : ∀ v, Arr v N (fun e => if e ∈ New0 then depth else vis e) →
      I New0 (fun e => if e ∈ New0 then depth else vis e) [] { s with visited := v }) :
    ∃ s' d New' vis' E', bfsRun push g Old.length depth visit s = .ok (s', d) ∧ I New' vis' E' s' ∧
      Found nl adj New0 depth vis New' vis' E' ∧ depth ≤ d ∧ (∀ e ∈ New', vis' e ≤ d) ∧
      (push = false → ∀ e ∈ New', vis' e < d) := by
  cases push with
  | true =>
    obtain ⟨s', d, New', vis', E', e, h1, h2, h3, h4⟩ := bfsPush_spec hF.ef hV hOld hne hS hA hI
    exact ⟨s', d, New', vis', E', e, h1, h2, h3, h4, by simp⟩
  | false =>
    obtain ⟨et, off, he, hA'⟩ := hF.af
    obtain ⟨s', d, New', vis', E', e, h1, h2, h3, h4⟩ := bfsPull_spec he hF.ef.loc hA' hV
      (fun v hv e he => ((hF.ef.mem v hv e).mp he).1) hOld hS hA (hov rfl) hI
    exact ⟨s', d, New', vis', E', e, h1, h2, h3, fun e he => by have := h4 e he; omega, fun _ => h4⟩

/-- the state between two rounds: the seeds `L`, their depths, some labels -/
structure Mid (s : Inputs) (N : Nat) (L : List Nat) (vis : Nat → Int) : Prop where
  st : St s N L vis
  lab : ∃ lab, Arr s.labels N lab

theorem mid_seeds {s : Inputs} {L : List Nat} (h : Seeds s N L) :
    s.seeds = Mem.ofList L ++ s.seeds.drop L.length := by
  apply List.ext_getElem?
  intro i
  rcases Nat.lt_or_ge i L.length with hi | hi
  · rw [List.getElem?_append_left (by simpa using hi), h.at' i hi]
    simp [Mem.ofList, hi]
  · rw [List.getElem?_append_right (by simpa using hi), List.getElem?_drop]
    congr 1
    simp only [Mem.length_ofList]; omega

/-- one round: from the layer `New0` all edges that can be reached are added, in the order of their depth; the depth is
the number of steps from the layer, up to an offset that is the same for neighbouring edges -/
theorem roundBody_spec {g : Graph} {pin : Nat → List Nat} {New0 : List Nat} {depth : Int} (push : Bool)
    (hF : GFacts g N nl adj pin) (hOld : ClosedSet nl adj (· ∈ Old)) (hne : New0 ≠ []) {s : Inputs} {vis : Nat → Int}
    (hS : Seeds s N (Old ++ New0)) (hA : Arr s.visited N vis) (hge : ∀ e ∈ Old, 0 ≤ vis e)
    (hun : ∀ e, e < N → e ∉ Old → vis e = -1) (hlab : ∃ lab, Arr s.labels N lab) (hd : 0 ≤ depth)
    (hov : push = false → ∀ e ∈ Old, vis e < depth) :
    ∃ s' d' New' vis', roundBody push g Old.length depth s = .ok (s', d') ∧ Mid s' N (Old ++ New') vis' ∧
      (∀ e, e ∉ New' → vis' e = vis e) ∧ New'.Pairwise (fun a b => vis' a ≤ vis' b) ∧ depth ≤ d' ∧
      (push = false → ∀ e ∈ New', vis' e < d') ∧
      ∃ F vis1 E, ∃ sh : Nat → Int, Found nl adj New0 depth vis F vis1 E ∧ New'.Perm F ∧ (∀ e ∈ F, vis' e = vis1 e + sh e) ∧
        ∃ cls : Nat → Nat, (∀ e f, e ∈ F → Nbr nl adj e f → cls e = cls f) ∧
          (∀ e ∈ F, ∀ f ∈ F, cls e = cls f → Linked E e f) ∧ (∀ e f, cls e = cls f → sh e = sh f) ∧
          ∀ e ∈ F, ∀ f ∈ F, cls e ≠ cls f →
            Apart (fun x => (F.countP (fun y => decide (cls y = cls x)) : Nat)) sh e f := by
  obtain ⟨lab, hlab⟩ := hlab
  obtain ⟨p, z, lb, lab', e1, hp, hz, hlb, hlk⟩ := initSets_spec hS hlab
  have hnd0 : New0.Nodup := (List.nodup_append.mp hS.nodup).2.1
  have hl0 : ∀ e ∈ New0, 0 ≤ lab' e ∧ lab' e < New0.length := by
    intro e he
    obtain ⟨k, hk, rfl⟩ := List.mem_iff_getElem.mp he
    rw [hlk k hk]; omega
  have hsz1 : ∀ k, k < New0.length → inSet New0 id lab' k = 1 := by
    intro k hk
    have : inSet New0 id lab' k = New0.count New0[k] := by
      unfold inSet
      rw [List.count_eq_countP]
      apply List.countP_congr
      intro e he
      obtain ⟨j, hj, rfl⟩ := List.mem_iff_getElem.mp he
      rw [hlk j hj]
      simp only [Int.toNat_natCast, id, decide_eq_true_eq, beq_iff_eq]
      exact (hnd0.getElem_inj_iff (hi := hj) (hj := hk)).symm
    rw [this]
    exact List.count_eq_one_of_mem hnd0 (List.getElem_mem hk)
  have hpos : 0 < New0.length := List.length_pos_iff.mpr hne
  obtain ⟨s1, d, F, vis1, E, e2, ⟨hst, par, root, rk, sz, lab1, c, hsets⟩, hfd, hdd, hmx, hmx'⟩ :=
    bfs_spec (I := DInv N New0.length Old) (depth := depth) push hF (distanceVisit_ok N New0.length Old) hOld hne
      (s := { s with numOsets := New0.length, numSets := New0.length, parents := p, setSize := z, labels := lb })
      (hS.of_eq rfl rfl) hA hov (by
        intro v hv
        refine ⟨⟨hS.of_eq rfl rfl, hv, ?_, ?_⟩, fun k => (k : Int), id, fun _ => 0, fun _ => 1, lab', 0, ?_⟩
        · intro e he
          show 0 ≤ (if e ∈ New0 then depth else vis e)
          by_cases h : e ∈ New0
          · rw [if_pos h]; exact hd
          · rw [if_neg h]; exact hge e ((List.mem_append.mp he).resolve_right h)
        · intro e he hn
          rw [List.mem_append, not_or] at hn
          show (if e ∈ New0 then depth else vis e) = -1
          rw [if_neg hn.2]; exact hun e he hn.1
        · refine ⟨hp, hz, hlb, Forest.init _, by simp, rfl, fun _ _ _ => le_refl _, fun k _ h => absurd rfl h, hl0, by simp,
            fun k hk _ => by rw [hsz1 k hk]; rfl, ?_⟩
          intro e he f hf hef
          obtain ⟨j, hj, rfl⟩ := List.mem_iff_getElem.mp he
          obtain ⟨k, hk, rfl⟩ := List.mem_iff_getElem.mp hf
          rw [hlk j hj, hlk k hk] at hef
          simp only [Int.toNat_natCast, id] at hef
          subst hef
          exact .refl _)
  obtain ⟨v, z2, add, sh, e3, hadd, hsh, hv, hap⟩ := correct_spec hst hsets
  have hFne : F ≠ [] := by
    intro h
    have := hfd.pre.length_le
    rw [h] at this
    simp only [List.length_nil] at this
    omega
  have hsd : s1.seeds = Mem.ofList Old ++ Mem.ofList F ++ s1.seeds.drop (Old ++ F).length := by
    have := mid_seeds hst.seeds
    rw [show Mem.ofList (Old ++ F) = Mem.ofList Old ++ Mem.ofList F by simp [Mem.ofList]] at this
    exact this
  have hvF : ∀ e ∈ F, v[e]? = some (some (vis1 e + sh (root (lab1 e).toNat))) := by
    intro e he
    rw [hv.at' e (hst.seeds.lt e (List.mem_append_right _ he)), if_pos he]
  obtain ⟨seg, e4, hperm, hsorted⟩ := c41_sort (Mem.ofList Old) (s1.seeds.drop (Old ++ F).length) F hFne v
    (fun e => vis1 e + sh (root (lab1 e).toNat)) hvF
  rw [← hsd] at e4
  have hnum : (s1.numSeeds : Int) - 1 = ((Mem.ofList Old).length : Int) + F.length - 1 := by
    rw [hst.seeds.num, List.length_append, Mem.length_ofList]; push_cast; omega
  have hms : ∀ e, e ∈ seg ↔ e ∈ F := fun e => hperm.mem_iff
  refine ⟨{ s1 with visited := v, seeds := Mem.ofList Old ++ Mem.ofList seg ++ s1.seeds.drop (Old ++ F).length, parents := [], setSize := [] },
    d + add, seg, fun e => if e ∈ F then vis1 e + sh (root (lab1 e).toNat) else vis1 e, ?_, ⟨⟨?_, hv, ?_, ?_⟩, lab1, hsets.aLab⟩, ?_, ?_, by omega, ?_,
    F, vis1, E, fun e => sh (root (lab1 e).toNat), hfd, hperm, fun e he => by simp only [if_pos he],
    fun e => root (lab1 e).toNat, ?_, hsets.conv, fun e f h => congrArg sh h, ?_⟩
  · unfold roundBody
    rw [e1, Outcome.bind_ok, e2, Outcome.bind_ok]
    simp only
    rw [e3, Outcome.bind_ok]
    simp only
    rw [hnum]
    rw [Mem.length_ofList] at e4 ⊢
    rw [e4, Outcome.bind_ok]
    rfl
  · have hnd := List.nodup_append.mp hst.seeds.nodup
    refine ⟨?_, ?_, ?_, ?_, ?_⟩
    · show (Mem.ofList Old ++ Mem.ofList seg ++ s1.seeds.drop (Old ++ F).length).length = N
      have hle := hst.seeds.le
      rw [List.length_append] at hle
      simp only [List.length_append, Mem.length_ofList, List.length_drop, hst.seeds.len, hperm.length_eq]
      omega
    · show s1.numSeeds = _
      rw [hst.seeds.num, List.length_append, List.length_append, hperm.length_eq]
    · intro k hk
      show (Mem.ofList Old ++ Mem.ofList seg ++ s1.seeds.drop (Old ++ F).length)[k]? = _
      rw [show Mem.ofList Old ++ Mem.ofList seg = Mem.ofList (Old ++ seg) by simp [Mem.ofList],
        List.getElem?_append_left (by simpa using hk)]
      simp only [Mem.ofList, List.getElem?_map, List.getElem?_eq_getElem hk, Option.map_some]
    · rw [List.nodup_append]
      exact ⟨hnd.1, hperm.nodup_iff.mpr hnd.2.1, fun a ha b hb => hnd.2.2 a ha b ((hms b).mp hb)⟩
    · intro e he
      apply hst.seeds.lt
      rcases List.mem_append.mp he with he | he
      · exact List.mem_append_left _ he
      · exact List.mem_append_right _ ((hms e).mp he)
  · intro e he
    show 0 ≤ (if e ∈ F then vis1 e + sh (root (lab1 e).toNat) else vis1 e)
    by_cases h : e ∈ F
    · rw [if_pos h]
      have h1 := hst.ge e (List.mem_append_right _ h)
      have h2 := (hsh (root (lab1 e).toNat)).1
      omega
    · rw [if_neg h]
      apply hst.ge
      exact List.mem_append_left _ ((List.mem_append.mp he).resolve_right (fun h' => h ((hms e).mp h')))
  · intro e he hn
    rw [List.mem_append, not_or, hms] at hn
    show (if e ∈ F then vis1 e + sh (root (lab1 e).toNat) else vis1 e) = -1
    rw [if_neg hn.2]
    exact hst.un e he (by rw [List.mem_append, not_or]; exact hn)
  · intro e he
    rw [hms] at he
    simp only [if_neg he]
    exact hfd.out e he
  · refine hsorted.imp_of_mem ?_
    intro a b ha hb hab
    rw [hms] at ha hb
    simp only [if_pos ha, if_pos hb]
    exact hab
  · intro hp e he
    rw [hms] at he
    simp only [if_pos he]
    have h1 := hmx' hp e he
    have h2 := (hsh (root (lab1 e).toNat)).2
    omega
  · rintro e f he ⟨w, hw, hew, hfw⟩
    obtain ⟨src, hl⟩ := hfd.link w hw e hew he
    have hr : ∀ x ∈ adj w, root (lab1 x).toNat = root (lab1 src).toNat := by
      intro x hx
      rcases hl x hx with rfl | hm
      · rfl
      · exact (hsets.same _ hm).2.2.symm
    simp only [hr e hew, hr f hfw]
  · intro e he f hf hne
    have hlt : ∀ x ∈ F, (lab1 x).toNat < New0.length := fun x hx => by
      have := hsets.labNew x hx
      omega
    have hA := hap _ _ (hsets.uf.rlt _ (hlt e he)) (hsets.uf.rlt _ (hlt f hf)) (hsets.uf.top _ (hlt e he))
      (hsets.uf.top _ (hlt f hf)) hne
    unfold Apart at hA ⊢
    rw [hsets.size _ (hsets.uf.rlt _ (hlt e he)) (hsets.uf.top _ (hlt e he)),
      hsets.size _ (hsets.uf.rlt _ (hlt f hf)) (hsets.uf.top _ (hlt f hf))] at hA
    exact hA

end
end Verif.Part
