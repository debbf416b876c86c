import Verif.Part.AcceptLemmas
/-!
# Lemmas on `cancel`
-/
namespace Verif.Part
open Verif.Agi

section
variable {g : Graph} {vs : List Gid} {hnd : Gid → Handle} {dims : List Int} {wt : Gid → Rat}
  {inc : Gid → Nat → List Handle} {res : Handle → Part → Bool} {ew : Handle → Rat}

/-- the vertices of `us` going to part `d` -/
def going (f : Gid → Part) (d : Part) (us : List Gid) : List Gid := us.filter (fun v => f v = d)

theorem going_append (f : Gid → Part) (d : Part) (a b : List Gid) : going f d (a ++ b) = going f d a ++ going f d b :=
  List.filter_append ..

/-- what dimension `dim` needs if `v` is kept on top of `kept` -/
def need (dims : List Int) (wt : Gid → Rat) (inc : Gid → Nat → List Handle) (res : Handle → Part → Bool)
    (ew : Handle → Rat) (f : Gid → Part) (kept : List Gid) (v : Gid) (dim : Int) : Rat :=
  if dim = -1 then dims.count (-1) * ((going f (f v) kept).map wt).sum + wt v
  else load wt inc res ew dim (f v) (going f (f v) kept ++ [v])

theorem fitsDims_spec (hf : Facts g vs hnd dims wt inc res ew) {f : Gid → Part} {kept : List Gid}
    (hk : ∀ v ∈ kept, v ∈ vs) {v : Gid} (hv : v ∈ vs) {st : Sums} (h : SumsAre dims wt inc res f kept st)
    {cap : List (Nat × List Rat)} {caps : List Rat} (hc : capOf cap (f v) = .ok caps)
    (hcl : caps.length = dims.length) :
    ∃ b tmps, (List.range dims.length).foldlM (fitsDim g dims (hnd v) (f v) cap st) (true, []) = .ok (b, tmps) ∧
      tmps.length = dims.length ∧
      (b = true ↔ ∀ i, i < dims.length → need dims wt inc res ew f kept v (dims.getD i 0) ≤ caps.getD i 0) ∧
      ∀ i (h1 : i < tmps.length) (h2 : i < st.edges.length) (h3 : i < dims.length), dims[i] ≠ -1 →
        ∀ e, e ∈ tmps[i] ↔ e ∉ st.edges[i] (f v) ∧ e ∈ inc v dims[i].toNat ∧ res e (f v) = false := by
  obtain ⟨⟨b, tmps⟩, e, h1, h2, h3⟩ := rangeM_inv (fitsDim g dims (hnd v) (f v) cap st)
    (fun k x => x.2.length = k ∧
      (x.1 = true ↔ ∀ i, i < k → need dims wt inc res ew f kept v (dims.getD i 0) ≤ caps.getD i 0) ∧
      ∀ i (_ : i < x.2.length) (h2 : i < st.edges.length) (h3 : i < dims.length), dims[i] ≠ -1 →
        ∀ e, e ∈ x.2[i] ↔ e ∉ st.edges[i] (f v) ∧ e ∈ inc v dims[i].toNat ∧ res e (f v) = false) dims.length
    (by
      rintro k ⟨b, tmps⟩ hkn ⟨hlen, hb, ht⟩
      have hg : dims.getD k 0 = dims[k] := by
        rw [List.getD_eq_getElem?_getD, List.getElem?_eq_getElem hkn]; rfl
      have hgc : caps.getD k 0 = caps[k]'(by omega) := by
        rw [List.getD_eq_getElem?_getD, List.getElem?_eq_getElem (by omega)]; rfl
      simp only at hlen hb ht
      unfold fitsDim
      rw [rd_ok hkn, Outcome.bind_ok, hc, Outcome.bind_ok, rd_ok (show k < caps.length by omega), Outcome.bind_ok]
      have hke : k < st.edges.length := by rw [h.len]; exact hkn
      have hstep : ∀ (x : Rat), need dims wt inc res ew f kept v (dims.getD k 0) = x → ∀ tmp : List Handle,
          (dims[k] ≠ -1 → ∀ e, e ∈ tmp ↔ e ∉ st.edges[k] (f v) ∧ e ∈ inc v dims[k].toNat ∧ res e (f v) = false) →
          (tmps ++ [tmp]).length = k + 1 ∧
          ((b && decide (x ≤ caps[k]'(by omega))) = true ↔
            ∀ i, i < k + 1 → need dims wt inc res ew f kept v (dims.getD i 0) ≤ caps.getD i 0) ∧
          ∀ i (_ : i < (tmps ++ [tmp]).length) (h2 : i < st.edges.length) (h3 : i < dims.length), dims[i] ≠ -1 →
            ∀ e, e ∈ (tmps ++ [tmp])[i] ↔
              e ∉ st.edges[i] (f v) ∧ e ∈ inc v dims[i].toNat ∧ res e (f v) = false := by
        intro x hx tmp htmp
        refine ⟨by simp [hlen], ?_, ?_⟩
        · rw [Bool.and_eq_true, hb, decide_eq_true_eq]
          constructor
          · rintro ⟨h1, h2⟩ i hi
            rcases Nat.lt_or_ge i k with h' | h'
            · exact h1 i h'
            · have : i = k := by omega
              subst this
              rw [hx, hgc]; exact h2
          · intro h1
            refine ⟨fun i hi => h1 i (by omega), ?_⟩
            have := h1 k (by omega)
            rwa [hx, hgc] at this
        · intro i h1 h2 h3 hne e
          rw [List.getElem_append]
          split
          · rename_i hi; exact ht i hi h2 h3 hne e
          · rename_i hi
            have hik : i = k := by simp at h1; omega
            subst hik
            simp only [hlen, Nat.sub_self, List.getElem_cons_zero]
            exact htmp hne e
      by_cases hne : dims[k] = -1
      · rw [if_neg (by simpa using hne), hf.vweight v hv, Outcome.bind_ok]
        refine ⟨_, rfl, hstep _ ?_ [] (fun h' => absurd hne h')⟩
        rw [hg, need, if_pos hne, h.vtx (f v)]; rfl
      · have h0 : 0 ≤ dims[k] := by have := hf.isdim _ (List.getElem_mem hkn); omega
        have hmd : ((dims[k].toNat : Nat) : Int) ∈ dims := by
          rw [Int.toNat_of_nonneg h0]; exact List.getElem_mem hkn
        rw [if_pos (by simpa using hne), rd_ok hke, Outcome.bind_ok,
          interiorEdges_eq hf hv (List.getElem_mem hkn) hne, Outcome.bind_ok,
          sums_weight hf hk h hkn hne hke, Outcome.bind_ok]
        set tmp := ((inc v dims[k].toNat).filter (fun e => decide (e ∉ st.edges[k] (f v)) && !res e (f v))).foldl
          insertSet [] with htmp
        have hmem : ∀ e, e ∈ tmp ↔ e ∉ st.edges[k] (f v) ∧ e ∈ inc v dims[k].toNat ∧ res e (f v) = false := by
          intro e
          rw [htmp, mem_foldSet, List.mem_filter]
          simp
          tauto
        have hnd : tmp.Nodup := nodup_foldSet _ List.nodup_nil
        rw [setWeight_eq (ew := ew) (fun e he => (hf.edge v hv _ hmd e ((hmem e).mp he).2.1).2), Outcome.bind_ok]
        refine ⟨_, rfl, hstep _ ?_ tmp (fun _ => hmem)⟩
        rw [hg, need, if_neg hne, load, if_neg hne, load, if_neg hne]
        have h1 : ((brought inc res dims[k].toNat (f v) (kept.filter (fun u => f u = f v))).map ew).sum =
            ((st.edges[k] (f v)).map ew).sum :=
          (brought_sum_congr (h.nodup k hke (f v)) (h.mem k hke hkn hne (f v))).symm
        rw [h1, ← List.sum_append, ← List.map_append]
        symm
        apply brought_sum_congr
        · rw [List.nodup_append]
          refine ⟨h.nodup k hke _, hnd, ?_⟩
          rintro a ha b hb rfl
          exact ((hmem a).mp hb).1 ha
        · intro e
          rw [List.mem_append, h.mem k hke hkn hne (f v) e, hmem e, h.mem k hke hkn hne (f v) e]
          unfold going
          constructor
          · rintro (⟨⟨u, hu, he⟩, hr⟩ | ⟨-, he, hr⟩)
            · exact ⟨⟨u, by simp only [List.mem_append]; exact .inl hu, he⟩, hr⟩
            · exact ⟨⟨v, by simp, he⟩, hr⟩
          · rintro ⟨⟨u, hu, he⟩, hr⟩
            by_cases hc : ∃ u ∈ kept.filter (fun u => f u = f v), e ∈ inc u dims[k].toNat
            · exact .inl ⟨hc, hr⟩
            · rw [List.mem_append, List.mem_singleton] at hu
              rcases hu with hu | rfl
              · exact absurd ⟨u, hu, he⟩ hc
              · exact .inr ⟨fun hcc => hc hcc.1, he, hr⟩)
    (true, []) ⟨rfl, by simp, by simp⟩
  exact ⟨b, tmps, e, h1, h2, h3⟩

theorem keepDims_spec (hf : Facts g vs hnd dims wt inc res ew) {f : Gid → Part} {kept : List Gid}
    {v : Gid} (hv : v ∈ vs) {st : Sums} (h : SumsAre dims wt inc res f kept st) {tmps : List (List Handle)}
    (hl : tmps.length = dims.length)
    (ht : ∀ i (h1 : i < tmps.length) (h2 : i < st.edges.length) (h3 : i < dims.length), dims[i] ≠ -1 →
        ∀ e, e ∈ tmps[i] ↔ e ∉ st.edges[i] (f v) ∧ e ∈ inc v dims[i].toNat ∧ res e (f v) = false) :
    ∃ st', (List.range dims.length).foldlM (keepDim g dims (hnd v) (f v) tmps) st = .ok st' ∧
      SumsAre dims wt inc res f (kept ++ [v]) st' := by
  obtain ⟨st', e, h', -⟩ := rangeM_inv (keepDim g dims (hnd v) (f v) tmps)
    (fun k s => SumsMid dims wt inc res f kept v k s ∧
      ∀ i (h1 : i < s.edges.length) (h2 : i < st.edges.length), k ≤ i → s.edges[i] = st.edges[i]) dims.length
    (by
      rintro k s hkn ⟨hI, hsame⟩
      unfold keepDim
      rw [rd_ok hkn, Outcome.bind_ok]
      have hks : k < s.edges.length := by rw [hI.len]; exact hkn
      have hke : k < st.edges.length := by rw [h.len]; exact hkn
      by_cases hne : dims[k] = -1
      · rw [if_neg (by simpa using hne), hf.vweight v hv, Outcome.bind_ok]
        exact ⟨_, rfl, hI.stepV hkn hne, fun i h1 h2 hki => hsame i h1 h2 (by omega)⟩
      · rw [if_pos (by simpa using hne), rd_ok hks, Outcome.bind_ok, rd_ok (by omega), Outcome.bind_ok]
        refine ⟨_, rfl, hI.stepE hkn hne hks (nodup_foldSet _ (hI.nodup k hks _)) ?_, ?_⟩
        · intro e
          rw [mem_foldSet, ht k (by omega) hke hkn hne e, hsame k hks hke (Nat.le_refl _)]
          tauto
        · intro i h1 h2 hki
          simp only [List.getElem_set]
          rw [if_neg (by omega)]
          exact hsame i (by simpa using h1) h2 (by omega))
    st ⟨SumsMid.start h, fun i _ _ _ => rfl⟩
  exact ⟨st', e, h'.finish⟩

theorem load_nonneg (hw : ∀ v ∈ vs, 0 ≤ wt v) (he : ∀ e, 0 ≤ ew e) (dim : Int) (d : Part) {us : List Gid}
    (hu : ∀ v ∈ us, v ∈ vs) : 0 ≤ load wt inc res ew dim d us := by
  unfold load
  split
  · apply List.sum_nonneg
    intro x hx
    obtain ⟨v, hv, rfl⟩ := List.mem_map.mp hx
    exact hw v (hu v hv)
  · apply List.sum_nonneg
    intro x hx
    obtain ⟨e, -, rfl⟩ := List.mem_map.mp hx
    exact he e

theorem sum_subset {α : Type} [DecidableEq α] {F : α → Rat} {a b : List α} (ha : a.Nodup) (hs : ∀ x ∈ a, x ∈ b)
    (hF : ∀ x ∈ b, 0 ≤ F x) : (a.map F).sum ≤ (b.map F).sum := by
  induction a generalizing b with
  | nil =>
    simp only [List.map_nil, List.sum_nil]
    apply List.sum_nonneg
    intro x hx
    obtain ⟨e, he, rfl⟩ := List.mem_map.mp hx
    exact hF e he
  | cons x a ih =>
    have hx : x ∈ b := hs x (by simp)
    have hp := List.perm_cons_erase hx
    rw [(hp.map F).sum_eq, List.map_cons, List.sum_cons, List.map_cons, List.sum_cons]
    rw [List.nodup_cons] at ha
    have := ih ha.2 (b := b.erase x) (fun y hy => by
      have h1 := hs y (by simp [hy])
      have hne : y ≠ x := by rintro rfl; exact ha.1 hy
      exact (List.mem_erase_of_ne hne).mpr h1) (fun y hy => hF y (List.mem_of_mem_erase hy))
    linarith

theorem load_mono (hw : ∀ v ∈ vs, 0 ≤ wt v) (he : ∀ e, 0 ≤ ew e) (dim : Int) (d : Part) {a b : List Gid}
    (hb : ∀ v ∈ b, v ∈ vs) (h : a.Sublist b) : load wt inc res ew dim d a ≤ load wt inc res ew dim d b := by
  unfold load
  split
  · have : ∀ {a b : List Gid}, a.Sublist b → (∀ v ∈ b, v ∈ vs) → (a.map wt).sum ≤ (b.map wt).sum := by
      intro a b h
      induction h with
      | slnil => simp
      | cons x _ ih =>
        intro hb
        have := ih (fun v hv => hb v (by simp [hv]))
        have := hw x (hb x (by simp))
        simp only [List.map_cons, List.sum_cons]; linarith
      | cons_cons x _ ih =>
        intro hb
        have := ih (fun v hv => hb v (by simp [hv]))
        simp only [List.map_cons, List.sum_cons]; linarith
    exact this h hb
  · apply sum_subset (nodup_brought _ _ _ _ _)
    · intro e h'
      rw [mem_brought] at h' ⊢
      obtain ⟨⟨v, hv, hv'⟩, hr⟩ := h'
      exact ⟨⟨v, h.subset hv, hv'⟩, hr⟩
    · intro e _; exact he e

/-- what `cancel` keeps -/
structure KeptOf (dims : List Int) (wt : Gid → Rat) (inc : Gid → Nat → List Handle) (res : Handle → Part → Bool)
    (ew : Handle → Rat) (f : Gid → Part) (capv : Part → List Rat) (s pre kept : List Gid) : Prop where
  sub : kept.Sublist pre
  fits : ∀ d, going f d kept ≠ [] → ∀ i, i < dims.length →
    load wt inc res ew (dims.getD i 0) d (going f d kept) ≤ (capv d).getD i 0
  all : ∀ d, (∀ i, i < dims.length → (offer dims wt inc res ew d (going f d s)).getD i 0 ≤ (capv d).getD i 0) →
    going f d kept = going f d pre

theorem offer_getD {d : Part} {us : List Gid} {i : Nat} (hi : i < dims.length) :
    (offer dims wt inc res ew d us).getD i 0 =
      (if dims.getD i 0 = -1 then (dims.count (-1) : Rat) else 1) * load wt inc res ew (dims.getD i 0) d us := by
  unfold offer
  rw [List.getD_eq_getElem?_getD, List.getElem?_map, List.getD_eq_getElem?_getD, List.getElem?_eq_getElem hi]
  rfl

/-- what `v` needs on top of `kept` is at most what was offered for all of them -/
theorem need_le_offer (hw : ∀ v ∈ vs, 0 ≤ wt v) (he : ∀ e, 0 ≤ ew e) {f : Gid → Part} {s kept : List Gid} {v : Gid}
    (hs : ∀ v ∈ s, v ∈ vs) (h : (going f (f v) kept ++ [v]).Sublist (going f (f v) s)) {i : Nat}
    (hi : i < dims.length) :
    need dims wt inc res ew f kept v (dims.getD i 0) ≤ (offer dims wt inc res ew (f v) (going f (f v) s)).getD i 0 := by
  rw [offer_getD hi]
  have hg : ∀ u ∈ going f (f v) s, u ∈ vs := fun u hu => hs u (List.mem_filter.mp hu).1
  have hmono := load_mono (inc := inc) (res := res) hw he (dims.getD i 0) (f v) hg h
  unfold need
  by_cases hd : dims.getD i 0 = -1
  · rw [if_pos hd, if_pos hd]
    have h1 : dims.count (-1) ≠ 0 := by
      rw [Ne, List.count_eq_zero, not_not]
      rw [← hd, List.getD_eq_getElem?_getD, List.getElem?_eq_getElem hi]
      exact List.getElem_mem hi
    have h2 : (1 : Rat) ≤ dims.count (-1) := by exact_mod_cast Nat.one_le_iff_ne_zero.mpr h1
    rw [hd] at hmono ⊢
    simp only [load, if_true, List.map_append, List.sum_append, List.map_cons, List.map_nil, List.sum_cons,
      List.sum_nil, add_zero] at hmono ⊢
    have h3 : 0 ≤ wt v := hw v (hg v (h.subset (by simp)))
    have h4 : (dims.count (-1) : Rat) * (((going f (f v) kept).map wt).sum + wt v) ≤
        dims.count (-1) * ((going f (f v) s).map wt).sum := mul_le_mul_of_nonneg_left hmono (by linarith)
    nlinarith
  · rw [if_neg hd, if_neg hd, one_mul]
    exact hmono

/-- what is kept costs no more than what is needed -/
theorem load_le_need (hw : ∀ v ∈ vs, 0 ≤ wt v) {f : Gid → Part} {kept : List Gid} {v : Gid}
    (hk : ∀ v ∈ kept, v ∈ vs) {i : Nat} (hi : i < dims.length) :
    load wt inc res ew (dims.getD i 0) (f v) (going f (f v) kept ++ [v]) ≤
      need dims wt inc res ew f kept v (dims.getD i 0) := by
  unfold need
  by_cases hd : dims.getD i 0 = -1
  · rw [if_pos hd, hd]
    have h1 : dims.count (-1) ≠ 0 := by
      rw [Ne, List.count_eq_zero, not_not]
      rw [← hd, List.getD_eq_getElem?_getD, List.getElem?_eq_getElem hi]
      exact List.getElem_mem hi
    have h2 : (1 : Rat) ≤ dims.count (-1) := by exact_mod_cast Nat.one_le_iff_ne_zero.mpr h1
    simp only [load, if_true, List.map_append, List.sum_append, List.map_cons, List.map_nil, List.sum_cons,
      List.sum_nil, add_zero]
    have h3 : 0 ≤ ((going f (f v) kept).map wt).sum := by
      apply List.sum_nonneg
      intro x hx
      obtain ⟨u, hu, rfl⟩ := List.mem_map.mp hx
      exact hw u (hk u (List.mem_filter.mp hu).1)
    nlinarith
  · rw [if_neg hd]

theorem cancelLoop_spec (hf : Facts g vs hnd dims wt inc res ew) (hw : ∀ v ∈ vs, 0 ≤ wt v) (he : ∀ e, 0 ≤ ew e)
    {f : Gid → Part} {plan : Plan} {s : List Gid} (hs : ∀ v ∈ s, v ∈ vs)
    (hget : ∀ v ∈ s, g.planGet plan (hnd v) = .ok (f v)) {cap : List (Nat × List Rat)} {capv : Part → List Rat}
    (hcap : ∀ v ∈ s, capOf cap (f v) = .ok (capv (f v)) ∧ (capv (f v)).length = dims.length) :
    ∃ st kept, (s.map hnd).foldlM (cancelStep g dims plan cap) (Sums.new dims.length, []) =
        .ok (st, kept.map (fun v => (hnd v, f v))) ∧ KeptOf dims wt inc res ew f capv s s kept := by
  rw [List.foldlM_map]
  obtain ⟨⟨st, keep⟩, e, kept, h1, h2, h3⟩ := foldlM_inv (fun x v => cancelStep g dims plan cap x (hnd v))
    (fun pre x => ∃ kept, x.2 = kept.map (fun v => (hnd v, f v)) ∧ SumsAre dims wt inc res f kept x.1 ∧
      KeptOf dims wt inc res ew f capv s pre kept) s
    (by
      rintro pre v ⟨st, keep⟩ hp ⟨kept, hkeep, hS, hK⟩
      simp only at hkeep hS
      have hv : v ∈ s := hp.subset (by simp)
      have hkv : ∀ u ∈ kept, u ∈ vs := fun u hu =>
        hs u (hp.subset (List.mem_append_left _ (hK.sub.subset hu)))
      obtain ⟨b, tmps, e1, e2, e3, e4⟩ := fitsDims_spec hf hkv (hs v hv) hS (hcap v hv).1 (hcap v hv).2
      unfold cancelStep
      rw [hget v hv, Outcome.bind_ok]
      simp only
      rw [e1, Outcome.bind_ok]
      simp only
      by_cases hb : b = true
      · rw [if_pos hb]
        obtain ⟨st', e5, h5⟩ := keepDims_spec hf (hs v hv) hS e2 e4
        rw [e5, Outcome.bind_ok]
        refine ⟨_, rfl, kept ++ [v], by simp [hkeep], h5, ?_⟩
        refine ⟨hK.sub.append (List.Sublist.refl _), ?_, ?_⟩
        · intro d hd i hi
          rw [going_append] at hd ⊢
          by_cases hdv : f v = d
          · subst hdv
            have : going f (f v) [v] = [v] := by simp [going]
            rw [this]
            exact le_trans (load_le_need hw hkv hi) (e3.mp hb i hi)
          · have : going f d [v] = [] := by simp [going, hdv]
            rw [this, List.append_nil] at hd ⊢
            exact hK.fits d hd i hi
        · intro d hd
          rw [going_append, going_append, hK.all d hd]
      · rw [if_neg hb]
        refine ⟨_, rfl, kept, hkeep, hS, ?_⟩
        refine ⟨hK.sub.trans (List.sublist_append_left _ _), hK.fits, ?_⟩
        intro d hd
        rw [going_append, ← hK.all d hd]
        by_cases hdv : f v = d
        · exfalso
          subst hdv
          apply hb
          rw [e3]
          intro i hi
          refine le_trans (need_le_offer hw he hs ?_ hi) (hd i hi)
          have h1 : (going f (f v) (pre ++ [v])).Sublist (going f (f v) s) := hp.sublist.filter _
          rw [going_append, ← hK.all _ hd] at h1
          have : going f (f v) [v] = [v] := by simp [going]
          rwa [this] at h1
        · simp [going, hdv])
    (Sums.new dims.length, []) ⟨[], rfl, SumsAre.new f, List.Sublist.refl _, by simp [going], by simp [going]⟩
  simp only at h1 h2
  refine ⟨st, kept, ?_, h3⟩
  rw [e, h1]

theorem cancel_spec (hf : Facts g vs hnd dims wt inc res ew) (hw : ∀ v ∈ vs, 0 ≤ wt v) (he : ∀ e, 0 ≤ ew e)
    {plan : Plan} {s : List Gid} {f : Gid → Option Part} (hn : g.numLocal = vs.length) (hnd' : vs.Nodup)
    (hh : ∀ v ∈ vs, hnd v = getVertex (vs.idxOf v)) (hp : PlanRep vs plan s f)
    {cap : List (Nat × List Rat)} {capv : Part → List Rat}
    (hcap : ∀ v ∈ s, ∀ d, f v = some d → capOf cap d = .ok (capv d) ∧ (capv d).length = dims.length) :
    ∃ plan' kept, cancel g dims plan cap = .ok plan' ∧
      PlanRep vs plan' kept (fun v => if v ∈ kept then f v else none) ∧
      KeptOf dims wt inc res ew (fun v => (f v).getD (-1)) capv s s kept := by
  have hs : ∀ v ∈ s, v ∈ vs := fun v hv => ((hp.mem v).mp hv).1
  have hsome : ∀ v ∈ s, ∃ d, f v = some d := fun v hv =>
    Option.ne_none_iff_exists'.mp ((hp.mem v).mp hv).2
  have hget : ∀ v ∈ s, g.planGet plan (hnd v) = .ok ((f v).getD (-1)) := by
    intro v hv
    rw [hh v (hs v hv)]
    exact planGet_eq hp hn (hs v hv)
  have hsend : plan.sending = s.map hnd := by
    rw [hp.sending]
    apply List.map_congr_left
    intro v hv
    rw [hh v (hs v hv)]
  obtain ⟨st, kept, e, hK⟩ := cancelLoop_spec hf hw he (f := fun v => (f v).getD (-1)) hs hget (cap := cap) (capv := capv)
    (by
      intro v hv
      obtain ⟨d, hd⟩ := hsome v hv
      simp only [hd, Option.getD_some]
      exact hcap v hv d hd)
  obtain ⟨p0, e0, h0⟩ := planClear_rep hp hnd'
  unfold cancel
  rw [hsend, e, Outcome.bind_ok]
  simp only
  rw [e0, Outcome.bind_ok, List.foldlM_map]
  have hkn : kept.Nodup := hK.sub.nodup hp.nodup
  have hks : ∀ v ∈ kept, v ∈ s := fun v hv => hK.sub.subset hv
  obtain ⟨plan', e', h'⟩ := foldlM_inv (fun p v => keepInsert g p (hnd v, (f v).getD (-1)))
    (fun pre p => PlanRep vs p pre (fun v => if v ∈ pre then f v else none)) kept
    (by
      intro pre v p hpre hI
      have hv : v ∈ kept := hpre.subset (by simp)
      have hvv := hs v (hks v hv)
      obtain ⟨d, hd⟩ := hsome v (hks v hv)
      have hdne : d ≠ -1 := by rintro rfl; exact hp.val v hvv hd
      obtain ⟨p', e1, h1⟩ := planInsert_rep (g := g) hI hn hnd' hvv hdne
      have hnot : v ∉ pre := by
        have : (pre ++ [v]).Nodup := hpre.sublist.nodup hkn
        rw [List.nodup_append] at this
        intro hc
        exact this.2.2 v hc v (by simp) rfl
      unfold keepInsert
      simp only
      rw [hh v hvv, hd, Option.getD_some, e1, Outcome.bind_ok]
      refine ⟨p', rfl, ?_⟩
      simp only [hnot, if_false, if_true] at h1
      have hfe : planPut (fun u => if u ∈ pre then f u else none) v d =
          fun u => if u ∈ pre ++ [v] then f u else none := by
        funext u
        unfold planPut
        by_cases huv : u = v
        · subst huv; simp [hd]
        · simp [huv]
      rw [hfe] at h1
      exact h1)
    p0 (by simpa using h0)
  refine ⟨plan', kept, ?_, h', hK⟩
  exact e'

end
end Verif.Part
