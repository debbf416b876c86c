import Verif.Io.FileSpec
import Verif.Io.BytesProps
/-!
# Lemmas: reading back what was written
-/
namespace Verif.Io
open Verif.Agi

/-- reading the bytes `b` with `f` gives `x` and leaves whatever follows -/
def Reads {α : Type} (f : List Nat → Outcome (α × List Nat)) (b : List Nat) (x : α) : Prop :=
  ∀ rest, f (b ++ rest) = .ok (x, rest)

theorem toU32_eq {x : Int} (h : U32 x) : (toU32 x : Int) = x := by
  obtain ⟨h0, h1⟩ := h
  unfold toU32
  rw [Int.emod_eq_of_lt h0 h1]; omega

theorem toU32_lt (x : Int) : toU32 x < 2 ^ 32 := by
  unfold toU32
  have h1 := Int.emod_nonneg x (show (2 ^ 32 : Int) ≠ 0 by decide)
  have h2 := Int.emod_lt_of_pos x (show (0 : Int) < 2 ^ 32 by decide)
  omega

theorem toU32_nat {n : Nat} (h : n < 2 ^ 32) : toU32 (n : Int) = n := by
  have := toU32_eq (x := (n : Int)) ⟨by omega, by omega⟩
  omega

variable {c : Codec} {writer reader : Bool}

theorem rU_wU (x : Int) : Reads (rU reader) (wU writer x) (toU32 x) := by
  intro rest
  unfold rU wU
  have := (c24_unsigneds writer reader [toU32 x] rest (by simpa using toU32_lt x)).2
  simp only [List.length_singleton] at this
  rw [this, Outcome.bind_ok]
  rfl

theorem rD_wD {ws : List Wgt} (h : ∀ w ∈ ws, c.Exact w) {n : Nat} (hn : n = ws.length) :
    Reads (rD c reader n) (wD c writer ws) ws := by
  intro rest
  subst hn
  unfold rD wD
  have := (c24_doubles writer reader (ws.map c.enc) rest (by
    intro x hx
    obtain ⟨w, hw, rfl⟩ := List.mem_map.mp hx
    exact (h w hw).1)).2
  rw [List.length_map] at this
  rw [this, Outcome.bind_ok]
  show Outcome.ok _ = _
  congr 2
  rw [List.map_map]
  conv_rhs => rw [← List.map_id ws]
  apply List.map_congr_left
  intro w hw
  exact (h w hw).2

theorem repeatRead_map {α β : Type} {f : List Nat → Outcome (α × List Nat)} {enc : β → List Nat} {F : β → α} :
    ∀ {xs : List β}, (∀ x ∈ xs, Reads f (enc x) (F x)) → Reads (repeatRead f xs.length) (xs.flatMap enc) (xs.map F) := by
  intro xs
  induction xs with
  | nil => intro _ rest; rfl
  | cons x xs ih =>
    intro h rest
    rw [List.length_cons, repeatRead, List.flatMap_cons, List.append_assoc, h x (by simp), Outcome.bind_ok]
    simp only
    rw [ih (fun y hy => h y (by simp [hy])), Outcome.bind_ok]
    rfl

theorem readVertex_eq {v : Gid} {w : Wgt} (hv : U32 v) (hw : c.Exact w) :
    Reads (readVertex c reader) (wU writer v ++ wD c writer [w]) (v, w) := by
  intro rest
  unfold readVertex
  rw [List.append_assoc, rU_wU, Outcome.bind_ok]
  simp only
  rw [rD_wD (ws := [w]) (n := 1) (by simpa using hw) rfl, Outcome.bind_ok]
  simp only [rd, List.getElem?_cons_zero, Outcome.ofOption_some, Outcome.bind_ok, toU32_eq hv, Outcome.pure_eq]

theorem readCoord_eq {x : Coord} (h : c.Exact x.1 ∧ c.Exact x.2.1 ∧ c.Exact x.2.2) :
    Reads (readCoord c reader) (wD c writer [x.1, x.2.1, x.2.2]) x := by
  intro rest
  unfold readCoord
  rw [rD_wD (ws := [x.1, x.2.1, x.2.2]) (n := 3) (by simpa using h) rfl, Outcome.bind_ok]
  simp [rd, Outcome.ofOption_some, Outcome.bind_ok]

/-- coordinates as written -/
def coordBytes (c : Codec) (little : Bool) : Option (List Coord) → List Nat
  | none => wU little 0
  | some cs => wU little 1 ++ cs.flatMap (fun x => wD c little [x.1, x.2.1, x.2.2])

theorem readCoords_eq {co : Option (List Coord)} {nv : Nat}
    (h : ∀ cs, co = some cs → cs.length = nv ∧ ∀ x ∈ cs, c.Exact x.1 ∧ c.Exact x.2.1 ∧ c.Exact x.2.2) :
    Reads (readCoords c reader nv) (coordBytes c writer co) co := by
  intro rest
  unfold readCoords
  cases co with
  | none =>
    simp only [coordBytes]
    rw [rU_wU, Outcome.bind_ok]
    rfl
  | some cs =>
    obtain ⟨hl, hx⟩ := h cs rfl
    simp only [coordBytes]
    rw [List.append_assoc, rU_wU, Outcome.bind_ok]
    simp only
    rw [if_pos (by rfl), ← hl, repeatRead_map (F := id) (f := readCoord c reader)
      (enc := fun x : Coord => wD c writer [x.1, x.2.1, x.2.2]) (fun x hx' => readCoord_eq (hx x hx')), Outcome.bind_ok]
    simp

/-- an edge as written -/
def hedgeBytes (c : Codec) (little : Bool) (E : HEdge) : List Nat :=
  wU little E.id ++ wD c little [E.w] ++ wU little (E.pins.length : Nat) ++ writeUnsigneds little (E.pins.map toU32)

/-- an edge that fits the file format -/
structure EdgeFits (c : Codec) (E : HEdge) : Prop where
  id : U32 E.id
  w : c.Exact E.w
  deg : E.pins.length < 2 ^ 32
  pins : ∀ v ∈ E.pins, U32 v

theorem writeUnsigneds_flat (little : Bool) (xs : List Nat) :
    writeUnsigneds little xs = xs.flatMap (fun x => writeUnsigneds little [x]) := by
  rw [writeUnsigneds_eq]
  apply List.flatMap_congr
  intro x _
  rw [writeUnsigneds_eq]; simp

theorem map_toU32 {l : List Gid} (h : ∀ v ∈ l, U32 v) : (l.map toU32).map Int.ofNat = l := by
  rw [List.map_map]
  conv_rhs => rw [← List.map_id l]
  apply List.map_congr_left
  intro v hv
  exact toU32_eq (h v hv)

theorem readEdge_eq {E : HEdge} (h : EdgeFits c E) :
    Reads (readEdge c reader) (hedgeBytes c writer E) (E.id, E.w, E.pins) := by
  intro rest
  unfold readEdge hedgeBytes
  simp only [List.append_assoc]
  rw [rU_wU, Outcome.bind_ok]
  simp only
  rw [rD_wD (ws := [E.w]) (n := 1) (by simpa using h.w) rfl, Outcome.bind_ok]
  simp only [rd, List.getElem?_cons_zero, Outcome.ofOption_some, Outcome.bind_ok]
  rw [rU_wU, Outcome.bind_ok]
  simp only
  rw [toU32_nat h.deg, writeUnsigneds_flat, show E.pins.length = (E.pins.map toU32).length by simp,
    repeatRead_map (F := id) (enc := fun x => writeUnsigneds writer [x])
    (fun x hx rest => by
      obtain ⟨v, hv, rfl⟩ := List.mem_map.mp hx
      exact rU_wU v rest), Outcome.bind_ok]
  simp only [List.map_id, Outcome.pure_eq, toU32_eq h.id, map_toU32 h.pins]

/-- a type as written -/
def typeBytes (c : Codec) (little : Bool) (t : Nat) (es : List HEdge) : List Nat :=
  wU little (t : Nat) ++ wU little (es.length : Nat) ++ es.flatMap (hedgeBytes c little)

/-- the edges as they are passed to `constructEdges` -/
def ofHEdges (es : List HEdge) : EdgeInput := ⟨es.map HEdge.id, es.map HEdge.pins, es.map HEdge.w⟩

theorem readEdges_eq {t : Nat} {es : List HEdge} (ht : t < 2 ^ 32) (hl : es.length < 2 ^ 32)
    (h : ∀ E ∈ es, EdgeFits c E) : Reads (readEdges c reader) (typeBytes c writer t es) (t, ofHEdges es) := by
  intro rest
  unfold readEdges typeBytes
  simp only [List.append_assoc]
  rw [rU_wU, Outcome.bind_ok]
  simp only
  rw [rU_wU, Outcome.bind_ok]
  simp only
  rw [toU32_nat hl, repeatRead_map (fun E hE => readEdge_eq (h E hE)), Outcome.bind_ok]
  simp only [Outcome.pure_eq, toU32_nat ht, ofHEdges, List.map_map]
  rfl

/-- all types as written -/
def typesBytes (c : Codec) (little : Bool) (t : Nat) : List (List HEdge) → List Nat
  | [] => []
  | es :: l => typeBytes c little t es ++ typesBytes c little (t + 1) l

theorem wU_length (little : Bool) (x : Int) : (wU little x).length = 4 := by
  unfold wU; rw [writeUnsigneds_eq]; simp [beBytes, leBytes_length]

theorem typesBytes_length : ∀ (l : List (List HEdge)) (t : Nat), l.length ≤ (typesBytes c writer t l).length := by
  intro l
  induction l with
  | nil => intro t; simp
  | cons es l ih =>
    intro t
    have := ih (t + 1)
    have h4 := wU_length writer (t : Nat)
    simp only [typesBytes, typeBytes, List.length_append, List.length_cons]
    omega

theorem readTypes_eq {nt : Nat} (hnt : nt < 2 ^ 32) : ∀ (l : List (List HEdge)) (t fuel : Nat), t + l.length = nt →
    l.length < fuel → (∀ es ∈ l, es.length < 2 ^ 32 ∧ ∀ E ∈ es, EdgeFits c E) →
    Reads (readTypes c reader nt fuel t) (typesBytes c writer t l) (l.map ofHEdges) := by
  intro l
  induction l with
  | nil =>
    intro t fuel he hf _ rest
    match fuel, hf with
    | fuel + 1, _ =>
      rw [readTypes, if_neg (by simp at he; omega)]
      rfl
  | cons es l ih =>
    intro t fuel he hf h rest
    simp only [List.length_cons] at he hf
    match fuel, hf with
    | fuel + 1, hf =>
      rw [readTypes, if_pos (by omega), typesBytes, List.append_assoc,
        readEdges_eq (by omega) (h es (by simp)).1 (h es (by simp)).2, Outcome.bind_ok]
      simp only
      rw [show ((t : Int) + 1) = ((t + 1 : Nat) : Int) by omega, toU32_nat (by omega),
        ih (t + 1) fuel (by omega) (by omega) (fun e he => h e (by simp [he])), Outcome.bind_ok]
      rfl

theorem readGhosts_eq {xs : List (Gid × Part)} (hl : xs.length < 2 ^ 32) (h : ∀ x ∈ xs, U32 x.1 ∧ U32 x.2) :
    Reads (readGhosts reader) (wU writer xs.length ++ xs.flatMap (fun x => wU writer x.1 ++ wU writer x.2))
      (xs.foldl (fun (m : GMap Part) x => m.put x.1 x.2) GMap.empty) := by
  intro rest
  unfold readGhosts
  rw [List.append_assoc, rU_wU, Outcome.bind_ok]
  simp only
  rw [toU32_nat hl, repeatRead_map (F := id) (f := readGhost reader)
    (enc := fun x : Gid × Part => wU writer x.1 ++ wU writer x.2) (fun x hx rest => by
      unfold readGhost
      rw [List.append_assoc, rU_wU, Outcome.bind_ok]
      simp only
      rw [rU_wU, Outcome.bind_ok]
      simp only [Outcome.pure_eq, toU32_eq (h x hx).1, toU32_eq (h x hx).2, id]), Outcome.bind_ok]
  simp

/-- the contents of the map filled from entries with distinct keys -/
theorem fold_put {xs : List (Gid × Part)} : ∀ (m : GMap Part), (xs.map Prod.fst).Nodup →
    ∀ v o, (v, o) ∈ xs → (xs.foldl (fun (m : GMap Part) x => m.put x.1 x.2) m) v = some o := by
  have keep : ∀ (xs : List (Gid × Part)) (m : GMap Part) v, v ∉ xs.map Prod.fst →
      (xs.foldl (fun (m : GMap Part) x => m.put x.1 x.2) m) v = m v := by
    intro xs
    induction xs with
    | nil => intro m v _; rfl
    | cons x xs ih =>
      intro m v hv
      simp only [List.map_cons, List.mem_cons, not_or] at hv
      rw [List.foldl_cons, ih _ _ hv.2]
      unfold GMap.put
      rw [if_neg hv.1]
  induction xs with
  | nil => intro m _ v o h; simp at h
  | cons x xs ih =>
    intro m hnd v o h
    simp only [List.map_cons, List.nodup_cons] at hnd
    rw [List.foldl_cons]
    rcases List.mem_cons.mp h with rfl | h
    · rw [keep _ _ _ hnd.1]
      unfold GMap.put
      rw [if_pos rfl]
    · exact ih _ hnd.2 v o h

/-- the contents of a file -/
def fileBytes (c : Codec) (little : Bool) (hyper : Bool) (verts : List (Gid × Wgt)) (co : Option (List Coord))
    (types : List (List HEdge)) (owns : List (Gid × Part)) : List Nat :=
  wU little (if hyper then 1 else 0) ++ ((wU little (verts.length : Nat) ++
    verts.flatMap (fun x => wU little x.1 ++ wD c little [x.2])) ++ coordBytes c little co ++
    (wU little (types.length : Nat) ++ (typesBytes c little 0 types ++
      (wU little (owns.length : Nat) ++ owns.flatMap (fun x => wU little x.1 ++ wU little x.2)))))

/-- everything that is written fits the file format -/
structure Fits (c : Codec) (verts : List (Gid × Wgt)) (co : Option (List Coord)) (types : List (List HEdge))
    (owns : List (Gid × Part)) : Prop where
  nv : verts.length < 2 ^ 32
  vs : ∀ x ∈ verts, U32 x.1 ∧ c.Exact x.2
  cs : ∀ cs, co = some cs → cs.length = verts.length ∧ ∀ x ∈ cs, c.Exact x.1 ∧ c.Exact x.2.1 ∧ c.Exact x.2.2
  nt : types.length < 2 ^ 32
  ts : ∀ es ∈ types, es.length < 2 ^ 32 ∧ ∀ E ∈ es, EdgeFits c E
  no : owns.length < 2 ^ 32
  os : ∀ x ∈ owns, U32 x.1 ∧ U32 x.2

theorem parseFile_eq {hyper : Bool} {verts : List (Gid × Wgt)} {co : Option (List Coord)} {types : List (List HEdge)}
    {owns : List (Gid × Part)} (h : Fits c verts co types owns) :
    parseFile c reader (fileBytes c writer hyper verts co types owns) =
      .ok ⟨⟨hyper, verts.map (fun x => x.1), verts.map (fun x => x.2), types.map ofHEdges⟩, co,
        owns.foldl (fun (m : GMap Part) x => m.put x.1 x.2) GMap.empty⟩ := by
  unfold parseFile fileBytes
  simp only [List.append_assoc]
  rw [rU_wU, Outcome.bind_ok]
  simp only
  rw [rU_wU, Outcome.bind_ok]
  simp only
  rw [toU32_nat h.nv, repeatRead_map (F := id) (f := readVertex c reader)
    (enc := fun x : Gid × Wgt => wU writer x.1 ++ wD c writer [x.2])
    (fun x hx => readVertex_eq (h.vs x hx).1 (h.vs x hx).2), Outcome.bind_ok]
  simp only
  rw [readCoords_eq h.cs, Outcome.bind_ok]
  simp only
  rw [rU_wU, Outcome.bind_ok]
  simp only
  rw [toU32_nat h.nt, readTypes_eq h.nt types 0 _ (by simp) (by
    have := typesBytes_length (c := c) (writer := writer) types 0
    rw [List.length_append]; omega) h.ts, Outcome.bind_ok]
  simp only
  have := readGhosts_eq (reader := reader) (writer := writer) h.no h.os []
  rw [List.append_nil] at this
  rw [this, Outcome.bind_ok]
  simp only [Outcome.pure_eq, List.map_id]
  cases hyper <;> rfl

end Verif.Io
