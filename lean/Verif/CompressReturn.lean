import Verif.CompressProps

/-!
# Decompressing what dscompress compressed

The table that `dscompress` left is opened later and `decompress` moves its columns back: decompress.cc:15-22 reads every
row of a column through `DyscoStMan`, in order, and puts it into a column of the default manager.

The examples are in `CompressSample.lean`.
-/

namespace Dysco.Compress
open Tools World Col Multi StMan End BytePacker Layout Prepare

/-- The cell for the values that were read. -/
def cells : (k : World.Kind) → Buf (Elem k) → Cell
  | .data, b => .complex ((List.range b.len).map b.get)
  | .weight, b => .float ((List.range b.len).map b.get)

/-- Decompressing finishes, and every row of both columns is then stored by the default manager with values as they were
read from the file; nothing else is changed. -/
theorem decompress_returns {columns : List Arg} {t t' : Tab} {x : Arg → Nat → Cell} (hout : Output t t' columns x)
    (hd : Tools.dataName ∈ columns) (hw : weightName ∈ columns)
    {K : (i : Fin columns.length) → Codec (Elem (kindAt columns i))} {cols : Fin columns.length → StMan.Column}
    {rows : Nat} {man : Man} {C : (i : Fin columns.length) → Nat → Buf (Elem (kindAt columns i)) → Prop}
    (hread : ∀ i, ReadsBack (K i) i (cols i) rows t.nrow man (C i))
    {view : View Cell} (reads : (i : Fin columns.length) → List (Call (Elem (kindAt columns i))))
    (bufs : (i : Fin columns.length) → Block (Elem (kindAt columns i)))
    (hgood : ∀ i, GoodCalls (cols i) rows t.nrow ((cols i).nPol * (cols i).nCh) (reads i))
    (hrows : ∀ i, (reads i).map Call.row = List.range t.nrow)
    (hview : ∀ i col outs, t'.cols columns[i] = some col → getAll (K i) i (reads i) ⟨man, noBlock, bufs i⟩ = .ok outs →
      ∀ (r : Nat) out, outs[r]? = some out → view col r = cells (kindAt columns i) out) :
    ∃ n0, ∀ n, n0 ≤ n → ∃ n' t'', decompressColumns view n t' = .done true n' t'' ∧ t''.nrow = t.nrow ∧
      (∀ i, columns[i] = Tools.dataName ∨ columns[i] = weightName → ∃ col, t''.cols columns[i] = some col ∧
        col.manager = default' ∧ col.kind = kindOf columns[i] ∧
        ∀ r, r < t.nrow → ∃ out, col.rows r = some (cells (kindAt columns i) out) ∧ C i r out) ∧
      ∀ c, c ≠ Tools.dataName → c ≠ weightName → t''.cols c = t'.cols c := by
  obtain ⟨fd, d, ed, md, kd, -⟩ := hout.moved _ hd
  obtain ⟨fw, w, ew, mw, kw, -⟩ := hout.moved _ hw
  have hdk : d.kind = .complex := by rw [kd]; decide
  have hwk : w.kind = .float := by rw [kw]; decide
  obtain ⟨n0, H⟩ := decompress_done view t' ⟨⟨d, ed, hdk⟩, ⟨w, ew, hwk⟩, fd, fw⟩ ed ew
  refine ⟨n0, fun n hn => ?_⟩
  obtain ⟨n', t'', e1, e2, e3, e4, e5⟩ := H n hn
  have vals : ∀ i col, t'.cols columns[i] = some col → ∀ r, r < t.nrow →
      ∃ out, view col r = cells (kindAt columns i) out ∧ C i r out := by
    intro i col hc r hr
    obtain ⟨outs, o1, o2⟩ := hread i (reads i) (bufs i) (hgood i)
    rw [List.forall₂_iff_get] at o2
    obtain ⟨l1, l2⟩ := o2
    have hlen : (reads i).length = t.nrow := by
      have := congrArg List.length (hrows i)
      simpa using this
    have hrow : ((reads i).get ⟨r, by omega⟩).row = r := by
      have h1 : ((reads i).map Call.row)[r]? = some r := by
        rw [hrows i, List.getElem?_range hr]
      rw [List.getElem?_map, List.getElem?_eq_getElem (by omega)] at h1
      injection h1 with h1
    refine ⟨outs.get ⟨r, by omega⟩, hview i col outs hc o1 r _ ?_, ?_⟩
    · rw [List.getElem?_eq_getElem (by omega)]
      rfl
    · have := l2 r (by omega) (by omega)
      rwa [hrow] at this
  refine ⟨n', t'', ?_, e2.trans hout.nrow, fun i hi => ?_, e5⟩
  · rw [e1]
    simp [md]
  rcases hi with hi | hi
  · refine ⟨_, by rw [hi]; exact e3, ?_⟩
    rw [decompressed, if_pos md]
    refine ⟨rfl, by rw [hi]; rfl, fun r hr => ?_⟩
    obtain ⟨out, v1, v2⟩ := vals i d (by rw [hi]; exact ed) r hr
    refine ⟨out, ?_, v2⟩
    rw [← v1]
    simp [copied, hout.nrow, hr]
  · refine ⟨_, by rw [hi]; exact e4, ?_⟩
    rw [decompressed, if_pos mw]
    refine ⟨rfl, by rw [hi]; rfl, fun r hr => ?_⟩
    obtain ⟨out, v1, v2⟩ := vals i w (by rw [hi]; exact ew) r hr
    refine ⟨out, ?_, v2⟩
    rw [← v1]
    simp [copied, hout.nrow, hr]

end Dysco.Compress
