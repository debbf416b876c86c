import Verif.Io.BinLemmas
/-!
# C43: loading a binary edge list

Specification: the file holds the edges `es` as pairs of 4-byte numbers (and perhaps a few bytes that are no edge); rank `p`
reads `share P p es`, the edges from `⌊m/P⌋·p` on; the edge list of rank `q` after the exchange holds the edges whose source
is owned by `q`, in the order of the file.
-/
namespace Verif.Io
open Verif.Agi

/-- the bytes of a file with edges `es` -/
def edgeFile (little : Bool) (es : List (Nat × Nat)) (rest : List Nat) : List Nat := es.flatMap (edgeBytes little) ++ rest

/-- `given` assigns ranks below `P` to the `n` vertices by `owner`: a part file line by line, 0 for missing lines; without a
part file the block distribution -/
def Assigns (P n : Nat) (owner : Nat → Nat) : Option (List Int) → Prop
  | none => ∀ i, i < n → owner i = i / (n / P + 1)
  | some l => ∀ i, i < n → l.getD i 0 = (owner i : Int) ∧ owner i < P

/-- one more than the largest id, 1 for a file without edges -/
def numIds (es : List (Nat × Nat)) : Nat := (flat es).foldl max 0 + 1

theorem foldl_max_nat (l : List Nat) : ∀ a : Nat, a ≤ l.foldl max a ∧ (∀ x ∈ l, x ≤ l.foldl max a) ∧
    (l.foldl max a = a ∨ l.foldl max a ∈ l) := by
  induction l with
  | nil => intro a; simp
  | cons y l ih =>
    intro a
    obtain ⟨h1, h2, h3⟩ := ih (max a y)
    rw [List.foldl_cons]
    refine ⟨by omega, ?_, ?_⟩
    · intro x hx
      rcases List.mem_cons.mp hx with rfl | hx
      · omega
      · exact h2 x hx
    · rcases h3 with h3 | h3
      · by_cases hlt : a < y
        · right; rw [h3, show max a y = y by omega]; simp
        · left; rw [h3]; omega
      · right; simp [h3]

theorem lt_numIds {es : List (Nat × Nat)} {x : Nat} (h : x ∈ flat es) : x < numIds es := by
  have := (foldl_max_nat (flat es) 0).2.1 x h
  unfold numIds; omega

theorem flat_flatMap {α β : Type} (f : β → List (α × α)) (l : List β) : flat (l.flatMap f) = l.flatMap (fun b => flat (f b)) := by
  unfold flat
  rw [List.flatMap_assoc]

theorem globalVerts_eq (es : List (Nat × Nat)) {P : Nat} (hP : 0 < P) :
    globalVerts ((List.range P).map (fun p => flat ((share P p es).map cast2))) = numIds es := by
  have hc : ∀ p, flat ((share P p es).map cast2) = (flat (share P p es)).map Int.ofNat := fun p => flat_map Int.ofNat _
  have hall : flat es = (List.range P).flatMap (fun p => flat (share P p es)) := by
    conv_lhs => rw [← shares_flatten es hP]
    exact flat_flatMap _ _
  obtain ⟨n1, n2, n3⟩ := foldl_max_nat (flat es) 0
  unfold numIds
  set M := (flat es).foldl max 0
  unfold globalVerts
  obtain ⟨g1, g2, g3⟩ := foldl_max_ge (((List.range P).map (fun p => flat ((share P p es).map cast2))).map maxId) 0
  set G := (((List.range P).map (fun p => flat ((share P p es).map cast2))).map maxId).foldl max 0
  have hMG : (M : Int) ≤ G := by
    rcases n3 with h | h
    · rw [h]; exact g1
    · rw [hall] at h
      obtain ⟨p, hp, hm⟩ := List.mem_flatMap.mp h
      have h2 := g2 (maxId (flat ((share P p es).map cast2))) (List.mem_map.mpr ⟨_, List.mem_map.mpr ⟨p, hp, rfl⟩, rfl⟩)
      have h3 := (maxId_spec (flat ((share P p es).map cast2))).2.1 (M : Int) (by
        rw [hc]; exact List.mem_map.mpr ⟨M, hm, rfl⟩)
      omega
  have hGM : G ≤ (M : Int) := by
    rcases g3 with h | h
    · rw [h]; omega
    · obtain ⟨r, hr, hrG⟩ := List.mem_map.mp h
      obtain ⟨p, hp, rfl⟩ := List.mem_map.mp hr
      rcases (maxId_spec (flat ((share P p es).map cast2))).2.2 with h0 | h0
      · rw [← hrG, h0]; omega
      · rw [hrG, hc] at h0
        obtain ⟨x, hx, hxG⟩ := List.mem_map.mp h0
        have : x ∈ flat es := by rw [hall]; exact List.mem_flatMap.mpr ⟨p, hp, hx⟩
        have := n2 x this
        have h' : (x : Int) = G := hxG
        omega
  omega

theorem assigns_ranks {P n : Nat} (hP : 0 < P) {owner : Nat → Nat} {given : Option (List Int)} (h : Assigns P n owner given) :
    rankTable n P given = .ok (Mem.ofList ((List.range n).map (fun i => (owner i : Int)))) ∧ ∀ i, i < n → owner i < P := by
  cases given with
  | none =>
    refine ⟨?_, fun i hi => by rw [h i hi]; exact block_lt hP hi⟩
    show vertBlockRanks n P = _
    rw [vertBlockRanks_eq]
    congr 2
    apply List.map_congr_left
    intro i hi
    rw [h i (List.mem_range.mp hi)]
  | some l =>
    refine ⟨?_, fun i hi => (h i hi).2⟩
    show Outcome.ok _ = _
    congr 2
    apply List.map_congr_left
    intro i hi
    exact (h i (List.mem_range.mp hi)).1

theorem getElem?_range_map {α : Type} (n : Nat) (f : Nat → α) {i : Nat} (h : i < n) : ((List.range n).map f)[i]? = some (f i) := by
  simp [h]

theorem sentTo_flatMap (owner : Nat → Nat) (q : Nat) (f : Nat → List (Nat × Nat)) (l : List Nat) :
    l.flatMap (fun p => sentTo owner q (f p)) = sentTo owner q (l.flatMap f) := by
  unfold sentTo
  rw [List.filter_flatMap]

/-- C43.  For every file, byte order, number of ranks and assignment of the vertices to ranks: the shares the ranks read,
one after the other, are the edges of the file, each once; every id of the file has a rank, which exists; and after the
exchange rank `q` has exactly the edges whose source it owns, each as often as in the file, in file order. -/
theorem c43_exchange (little : Bool) (es : List (Nat × Nat)) (rest : List Nat) (hrest : rest.length < 8)
    (hid : ∀ e ∈ es, e.1 < 2147483648 ∧ e.2 < 2147483648) (P : Nat) (hP : 0 < P) (given : Option (List Int))
    (owner : Nat → Nat) (ho : Assigns P (numIds es) owner given) :
    (∀ p, p < P → loadEdges little (edgeFile little es rest) P p = .ok (flat ((share P p es).map cast2))) ∧
    (List.range P).flatMap (fun p => share P p es) = es ∧
    (∀ e ∈ es, owner e.1 < P ∧ owner e.2 < P) ∧
    loadAll little (edgeFile little es rest) P given =
      .ok (numIds es, Mem.ofList ((List.range (numIds es)).map (fun i => (owner i : Int))),
        (List.range P).map (fun q => Mem.ofList (flat ((es.filter (fun e => owner e.1 == q)).map cast2)))) := by
  have hl : ∀ p, p < P → loadEdges little (edgeFile little es rest) P p = .ok (flat ((share P p es).map cast2)) :=
    fun p hp => loadEdges_eq little es rest hrest hid hp
  obtain ⟨hr, hlt⟩ := assigns_ranks hP ho
  have hsh := shares_flatten es hP
  have hlen : ∀ e ∈ es, e.1 < numIds es ∧ e.2 < numIds es := fun e he =>
    ⟨lt_numIds (mem_flat.mpr ⟨e, he, Or.inl rfl⟩), lt_numIds (mem_flat.mpr ⟨e, he, Or.inr rfl⟩)⟩
  refine ⟨hl, hsh, fun e he => ⟨hlt _ (hlen e he).1, hlt _ (hlen e he).2⟩, ?_⟩
  unfold loadAll
  rw [mapM_ok (fun p hp => hl p (List.mem_range.mp hp)), Outcome.bind_ok]
  simp only [globalVerts_eq es hP]
  rw [hr, Outcome.bind_ok]
  set ranks : Mem Int := Mem.ofList ((List.range (numIds es)).map (fun i => (owner i : Int))) with hranks
  have hpack : ∀ p, ∃ s, p < P → (packEdges P ranks (Mem.ofList (flat ((share P p es).map cast2))) (share P p es).length = .ok s ∧
      Packed P owner (share P p es) s) := by
    intro p
    by_cases hp : p < P
    · obtain ⟨s, h⟩ := packEdges_spec hP (ranks := ranks) (owner := owner) (es := share P p es) (by
        intro e he
        have hmem : e ∈ es := List.mem_of_mem_drop (List.mem_of_mem_take he)
        refine ⟨?_, hlt _ (hlen e hmem).1⟩
        rw [hranks, Mem.ofList, List.getElem?_map, getElem?_range_map _ _ (hlen e hmem).1]
        rfl)
      exact ⟨s, fun _ => h⟩
    · exact ⟨⟨[], [], []⟩, fun h => absurd h hp⟩
  choose s hs using hpack
  have hm : ((List.range P).map (fun p => flat ((share P p es).map cast2))).mapM
      (fun re => packEdges P ranks (Mem.ofList re) (re.length / 2)) = .ok ((List.range P).map s) := by
    rw [List.mapM_map]
    apply mapM_ok
    intro p hp
    show packEdges P ranks (Mem.ofList (flat ((share P p es).map cast2))) ((flat ((share P p es).map cast2)).length / 2) = _
    rw [flat_length, List.length_map, Nat.mul_div_cancel_left _ (by omega)]
    exact (hs p (List.mem_range.mp hp)).1
  rw [hm, Outcome.bind_ok]
  have he : (List.range P).mapM (exchangeEdges P ((List.range P).map s)) =
      .ok ((List.range P).map (fun q => Mem.ofList (flat ((es.filter (fun e => owner e.1 == q)).map cast2)))) := by
    apply mapM_ok
    intro q hq
    rw [exchangeEdges_spec hP (fun p => share P p es) (by simp) (by
      intro p hp
      rw [List.getElem_map, List.getElem_range]
      exact (hs p hp).2) (List.mem_range.mp hq), sentTo_flatMap, hsh]
    rfl
  rw [he]
  rfl

/-- a part file naming a rank that does not exist makes the program write outside of its arrays -/
theorem c43_bad_rank_ub : loadAll true (edgeFile true [(0, 1)] []) 2 (some [2, 0]) = .ub := by decide +kernel

/-- non-vacuity: 5 edges and 3 stray bytes on 2 ranks -/
example : Assigns 2 (numIds [(4, 5), (5, 4), (0, 1), (1, 4), (4, 1)]) (fun i => i / 4) none := by
  intro i hi
  rfl

example : loadAll true (edgeFile true [(4, 5), (5, 4), (0, 1), (1, 4), (4, 1)] [7, 7, 7]) 2 none =
    .ok (6, Mem.ofList [0, 0, 0, 0, 1, 1], [Mem.ofList [0, 1, 1, 4], Mem.ofList [4, 5, 5, 4, 4, 1]]) := by decide +kernel

end Verif.Io
