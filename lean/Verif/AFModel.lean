import Verif.TimeBlockModel

/-!
# Model of `aftimeblockencoder.{h,cc}` and of `RMSMeasurement` in `timeblockencoder.h`

`sq` is `std::sqrt`. The member `_rmsPerAntenna`, which only ever grows, is modelled with the size that
the current call needs. The function `Normalize` (aftimeblockencoder.cc:25-79) is not modelled: nothing
calls it.
-/

namespace Dysco

/-- `std::min(a, b)` is `(b < a) ? b : a`. Used at aftimeblockencoder.cc:135, 161, 194. -/
def Fl.stdMin (a b : Fl) : Fl := if Fl.lt b a then b else a

/-- `do s = body(s) while (progressing)`, with at most `fuel` iterations: `none` is undefined
behaviour, `some none` means that the loop still runs after `fuel` iterations.
Shape of the loop aftimeblockencoder.cc:149-260. -/
def doWhile {σ : Type} (body : σ → Option (σ × Bool)) : Nat → σ → Option (Option σ)
  | 0, _ => some none
  | fuel + 1, s => (body s).bind fun r => if r.2 then doWhile body fuel r.1 else some (some r.1)

namespace AF
open TimeBlock

/-- `RMSMeasurement::Include`, timeblockencoder.h:16-21 and 26-28: count and sum of squares. -/
def includeVis (RD : ℚ → Fl) (m : Nat × Fl) (v : Cx) : Nat × Fl :=
  if v.re.isFinite && v.im.isFinite then
    (m.1 + 1, Fl.add RD m.2 (Fl.add RD (Fl.mul RD v.re v.re) (Fl.mul RD v.im v.im)))
  else m

/-- `RMSMeasurement::RMS`, timeblockencoder.h:23. The conversion of the count to `double` is exact (counts
below 2^52). -/
def rms (RD : ℚ → Fl) (sq : Fl → Fl) (m : Nat × Fl) : Fl := sq (Fl.div RD m.2 (.fin (m.1 * 2 : ℕ)))

/-- Measurements of all channels and polarisations, aftimeblockencoder.cc:276-281. -/
def channelMeas (RD : ℚ → Fl) (visPerRow : Nat) (data : Block Cx) : Option (Buf (Nat × Fl)) :=
  forRange data.len (fun r meas =>
    forRange visPerRow (fun i (meas : Buf (Nat × Fl)) =>
      (rdVis data r i).bind fun v => (meas.rd i).bind fun m => meas.wr i (includeVis RD m v)) meas)
    ⟨visPerRow, fun _ => (0, .fin 0)⟩

/-- `if (rms != 0.0) v /= rms`, aftimeblockencoder.cc:285-287. -/
def divRms (RD : ℚ → Fl) (rms : Fl) (v : Cx) : Cx := if Fl.eq rms (.fin 0) then v else v.divBy RD rms

/-- Normalisation of the channels, aftimeblockencoder.cc:282-290. -/
def normalizeChannels (RF RD : ℚ → Fl) (sq : Fl → Fl) (visPerRow : Nat) (meas : Buf (Nat × Fl))
    (st : Block Cx × Buf Fl) : Option (Block Cx × Buf Fl) :=
  forRange st.1.len (fun r st =>
    forRange visPerRow (fun i (st : Block Cx × Buf Fl) =>
      (meas.rd i).bind fun m =>
      (updVis st.1 r i (divRms RD (rms RD sq m))).bind fun data =>
      (st.2.wr i (Fl.cast RF (rms RD sq m))).map fun metaB => (data, metaB)) st) st

/-- Index of a baseline in the antenna matrix, aftimeblockencoder.cc:345-347. -/
def baselineIndex (nAnt a1 a2 : Nat) : Nat := min a1 a2 * nAnt + max a1 a2

/-- Measurements per baseline, aftimeblockencoder.cc:342-351. -/
def baselineMeas (RD : ℚ → Fl) (nPol nCh nAnt p : Nat) (data : Block Cx) : Option (Buf (Nat × Fl)) :=
  forRange data.len (fun r meas => (data.rd r).bind fun row =>
    if row.antenna1 = row.antenna2 then some meas else
      forRange nCh (fun ch (meas : Buf (Nat × Fl)) =>
        (row.vis.rd (ch * nPol + p)).bind fun v =>
        (meas.rd (baselineIndex nAnt row.antenna1 row.antenna2)).bind fun m =>
        meas.wr (baselineIndex nAnt row.antenna1 row.antenna2) (includeVis RD m v)) meas)
    ⟨nAnt * nAnt, fun _ => (0, .fin 0)⟩

/-- The symmetric matrix of RMS values, aftimeblockencoder.cc:353-359. Simplification: the two writes per
element pair are one function; `matrix[i][j]` is the RMS of the measurement of `(min i j, max i j)`. -/
def rmsMatrix (RD : ℚ → Fl) (sq : Fl → Fl) (nAnt : Nat) (meas : Buf (Nat × Fl)) (i j : Nat) :
    Option Fl := (meas.rd (baselineIndex nAnt i j)).map (rms RD sq)

/-- One row of the matrix: sum of the finite elements and of the weights, aftimeblockencoder.cc:370-380. -/
def nextSums (RD : ℚ → Fl) (nAnt : Nat) (mat : Nat → Nat → Option Fl) (ant : Buf Fl) (i : Nat) :
    Option (Fl × Fl) :=
  forRange nAnt (fun j (s : Fl × Fl) => (ant.rd j).bind fun w =>
    if i ≠ j ∧ Fl.eq w (.fin 0) = false then
      (mat i j).map fun x => if x.isFinite then (Fl.add RD s.1 x, Fl.add RD s.2 w) else s
    else some s) (.fin 0, .fin 0)

/-- `nextRMS[i]`, aftimeblockencoder.cc:381-384. -/
def nextRms (RD : ℚ → Fl) (s : Fl × Fl) : Fl := if Fl.eq s.2 (.fin 0) then .fin 0 else Fl.div RD s.1 s.2

/-- State of the iteration: antenna values and precision. aftimeblockencoder.cc:340-439 (`calculateAntennaeRMS`). -/
structure RmsState where
  ant : Buf Fl
  precision : Fl

/-- One iteration, aftimeblockencoder.cc:367-396. -/
def rmsIterate (RD : ℚ → Fl) (nAnt : Nat) (mat : Nat → Nat → Option Fl) (st : RmsState) :
    Option RmsState :=
  (forRange nAnt (fun i (next : Buf Fl) => (nextSums RD nAnt mat st.ant i).bind fun s =>
    next.wr i (nextRms RD s)) ⟨nAnt, fun _ => .fin 0⟩).bind fun next =>
  (forRange nAnt (fun i (s : Buf Fl × Fl) => (next.rd i).bind fun x => (s.1.rd i).bind fun old =>
    (s.1.wr i (Fl.add RD (Fl.mul RD x (RD (4 / 5))) (Fl.mul RD old (RD (1 / 5))))).map fun ant =>
      (ant, Fl.stdMax (Fl.add RD (Fl.mul RD x (RD (4 / 5))) (Fl.mul RD old (RD (1 / 5)))) s.2))
    (st.ant, .fin 0)).bind fun s =>
  forRange nAnt (fun i (t : RmsState) => (t.ant.rd i).bind fun x => (next.rd i).bind fun nx =>
    (t.ant.wr i (if Fl.lt x (Fl.mul RD s.2 (RD (1 / 100000))) then .fin 0 else x)).map fun ant =>
      ⟨ant, Fl.stdMax t.precision (Fl.div RD (Fl.abs (Fl.sub RD
        (if Fl.lt x (Fl.mul RD s.2 (RD (1 / 100000))) then .fin 0 else x) nx)) s.2)⟩)
    ⟨s.1, .fin 0⟩

/-- `calculateAntennaeRMS`, aftimeblockencoder.cc:340-398. -/
def antennaRms (RD : ℚ → Fl) (sq : Fl → Fl) (nPol nCh nAnt p : Nat) (data : Block Cx) :
    Option (Buf Fl) :=
  (baselineMeas RD nPol nCh nAnt p data).bind fun meas =>
  (forRange 100 (fun _ (st : RmsState) =>
    if Fl.lt (RD (1 / 1000000)) st.precision then rmsIterate RD nAnt (rmsMatrix RD sq nAnt meas) st
    else some st) ⟨⟨nAnt, fun _ => .fin 1⟩, .fin 1⟩).map RmsState.ant

/-- `fac`, aftimeblockencoder.cc:296-298. -/
def antFactor (RD : ℚ → Fl) (r1 r2 : Fl) : Fl :=
  if Fl.eq (Fl.mul RD r1 r2) (.fin 0) then .fin 0 else Fl.div RD (.fin 1) (Fl.mul RD r1 r2)

/-- Normalisation of the antennas of polarisation `p`, aftimeblockencoder.cc:293-306. -/
def normalizeAntennas (RF RD : ℚ → Fl) (sq : Fl → Fl) (nPol nCh nAnt p : Nat)
    (st : Block Cx × Buf Fl) : Option (Block Cx × Buf Fl) :=
  (antennaRms RD sq nPol nCh nAnt p st.1).bind fun ant =>
  (forRange st.1.len (fun r data => (st.1.rd r).bind fun row =>
    (ant.rd row.antenna1).bind fun r1 => (ant.rd row.antenna2).bind fun r2 =>
    forRange nCh (fun ch data => updVis data r (ch * nPol + p) fun v =>
      v.scale RD (antFactor RD r1 r2)) data) st.1).bind fun data =>
  (forRange nAnt (fun a (metaB : Buf Fl) => (ant.rd a).bind fun x =>
    metaB.wr (nPol * nCh + (nAnt * p + a)) (Fl.cast RF x)) st.2).map fun metaB => (data, metaB)

/-- `std::max(std::max(re, im), -std::min(re, im))`, aftimeblockencoder.cc:133-134. -/
def localMax (v : Cx) : Fl := Fl.stdMax (Fl.stdMax v.re v.im) (Fl.neg (Fl.stdMin v.re v.im))

/-- `if (std::isfinite(m) && m > largest) largest = m`, aftimeblockencoder.cc:135-136. -/
def largerOf (mx m : Fl) : Fl := if m.isFinite && Fl.lt mx m then m else mx

/-- Largest component of the cross-correlations of a channel/polarisation, aftimeblockencoder.cc:129-138
and 155-166. -/
def crossMax (data : Block Cx) (i : Nat) : Option Fl :=
  forRange data.len (fun r mx => (data.rd r).bind fun row =>
    if row.antenna1 = row.antenna2 then some mx else
      (row.vis.rd i).map fun v => largerOf mx (localMax v)) (.fin 0)

/-- `changeChannelFactor`, aftimeblockencoder.cc:6-11. -/
def changeChannel (RF RD : ℚ → Fl) (st : Block Cx × Buf Fl) (i : Nat) (f : Fl) :
    Option (Block Cx × Buf Fl) :=
  (st.2.rd i).bind fun m =>
  (st.2.wr i (Fl.cast RF (Fl.div RD m f))).bind fun metaB =>
  (forRange st.1.len (fun r data => updVis data r i fun v => v.scale RD f) st.1).map
    fun data => (data, metaB)

/-- Number of times the antenna occurs in the row, aftimeblockencoder.cc:90-92. -/
def antCount {α : Type} (row : DataRow α) (a : Nat) : Nat :=
  (if row.antenna1 = a then 1 else 0) + (if row.antenna2 = a then 1 else 0)

/-- `changeAntennaFactor`, aftimeblockencoder.cc:81-98. -/
def changeAntenna (RF RD : ℚ → Fl) (nPol nCh nAnt : Nat) (st : Block Cx × Buf Fl) (a p : Nat)
    (f : Fl) : Option (Block Cx × Buf Fl) :=
  (st.2.rd (nPol * nCh + (nAnt * p + a))).bind fun m =>
  (st.2.wr (nPol * nCh + (nAnt * p + a)) (Fl.cast RF (Fl.div RD m f))).bind fun metaB =>
  (forRange st.1.len (fun r data => (st.1.rd r).bind fun row =>
    forRange (antCount row a) (fun _ data =>
      forRange nCh (fun ch data => updVis data r (ch * nPol + p) fun v => v.scale RD f) data) data)
    st.1).map fun data => (data, metaB)

/-- `factor` of the first stage, aftimeblockencoder.cc:139-142. -/
def firstFactor (RD : ℚ → Fl) (maxLevel mx : Fl) : Fl :=
  if Fl.eq maxLevel (.fin 0) || Fl.eq mx (.fin 0) then .fin 1 else Fl.div RD maxLevel mx

/-- First stage of `fitToMaximum`: every channel/polarisation to the maximum, aftimeblockencoder.cc:126-144. -/
def fitChannels (RF RD : ℚ → Fl) (nPol nCh : Nat) (maxLevel : Fl) (st : Block Cx × Buf Fl) :
    Option (Block Cx × Buf Fl) :=
  forRange (nPol * nCh) (fun i st => (crossMax st.1 i).bind fun mx =>
    changeChannel RF RD st i (firstFactor RD maxLevel mx)) st

/-- `(mx == 0.0) ? 0.0 : (max_level / mx - 1.0)`, aftimeblockencoder.cc:167-169, 209-218. -/
def gain (RD : ℚ → Fl) (maxLevel mx : Fl) : Fl :=
  if Fl.eq mx (.fin 0) then .fin 0 else Fl.sub RD (Fl.div RD maxLevel mx) (.fin 1)

/-- `if (std::isfinite(av)) sum += av` with `av = |re| + |im|` of the scaled visibility,
aftimeblockencoder.cc:174-178. -/
def addAbs (RD : ℚ → Fl) (sum : Fl) (v : Cx) (f : Fl) : Fl :=
  if (Fl.add RD (Fl.abs (Fl.mul RD v.re f)) (Fl.abs (Fl.mul RD v.im f))).isFinite then
    Fl.add RD sum (Fl.add RD (Fl.abs (Fl.mul RD v.re f)) (Fl.abs (Fl.mul RD v.im f)))
  else sum

/-- Increase of the sum when a channel is scaled, aftimeblockencoder.cc:171-180. -/
def channelIncrease (RD : ℚ → Fl) (data : Block Cx) (i : Nat) (f : Fl) : Option Fl :=
  forRange data.len (fun r s => (data.rd r).bind fun row =>
    if row.antenna1 = row.antenna2 then some s else
      (row.vis.rd i).map fun v => addAbs RD s v f) (.fin 0)

/-- Best channel so far: increase, channel, factor. aftimeblockencoder.cc:151-152. -/
structure BestChannel where
  increase : Fl
  channel : Nat
  factor : Fl

/-- Search for the best channel, aftimeblockencoder.cc:149-186. -/
def bestChannel (RD : ℚ → Fl) (nPol nCh p : Nat) (maxLevel : Fl) (data : Block Cx) :
    Option BestChannel :=
  forRange nCh (fun ch (b : BestChannel) =>
    (crossMax data (ch * nPol + p)).bind fun mx =>
    (channelIncrease RD data (ch * nPol + p) (gain RD maxLevel mx)).map fun inc =>
      if Fl.lt b.increase inc then ⟨inc, ch, Fl.add RD (gain RD maxLevel mx) (.fin 1)⟩ else b)
    ⟨.fin 0, 0, .fin 1⟩

/-- `if (m > buf[a]) buf[a] = m`, aftimeblockencoder.cc:197-200. -/
def raiseTo (buf : Buf Fl) (a : Nat) (m : Fl) : Option (Buf Fl) :=
  (buf.rd a).bind fun x => if Fl.lt x m then buf.wr a m else some buf

/-- Largest component per antenna, aftimeblockencoder.cc:188-204. -/
def antennaMax (nPol nCh nAnt p : Nat) (data : Block Cx) : Option (Buf Fl) :=
  forRange data.len (fun r mx => (data.rd r).bind fun row =>
    if row.antenna1 = row.antenna2 then some mx else
      forRange nCh (fun ch (mx : Buf Fl) => (row.vis.rd (ch * nPol + p)).bind fun v =>
        if (localMax v).isFinite then
          (raiseTo mx row.antenna1 (localMax v)).bind fun mx => raiseTo mx row.antenna2 (localMax v)
        else some mx) mx) ⟨nAnt, fun _ => .fin 0⟩

/-- Increase of the sum per antenna, aftimeblockencoder.cc:205-230. -/
def antennaIncrease (RD : ℚ → Fl) (nPol nCh nAnt p : Nat) (maxLevel : Fl) (mx : Buf Fl)
    (data : Block Cx) : Option (Buf Fl) :=
  forRange data.len (fun r inc => (data.rd r).bind fun row =>
    if row.antenna1 = row.antenna2 then some inc else
      (mx.rd row.antenna1).bind fun m1 => (mx.rd row.antenna2).bind fun m2 =>
      forRange nCh (fun ch (inc : Buf Fl) => (row.vis.rd (ch * nPol + p)).bind fun v =>
        (inc.rd row.antenna1).bind fun s1 =>
        (inc.wr row.antenna1 (addAbs RD s1 v (gain RD maxLevel m1))).bind fun inc =>
        (inc.rd row.antenna2).bind fun s2 =>
        inc.wr row.antenna2 (addAbs RD s2 v (gain RD maxLevel m2))) inc) ⟨nAnt, fun _ => .fin 0⟩

/-- Search for the best antenna: index and increase, aftimeblockencoder.cc:231-238. -/
def bestAntenna (nAnt : Nat) (inc : Buf Fl) : Option (Nat × Fl) :=
  forRange nAnt (fun a (b : Nat × Fl) => (inc.rd a).map fun x => if Fl.lt b.2 x then (a, x) else b)
    (0, .fin 0)

/-- `factor` of the best antenna, aftimeblockencoder.cc:242-245. -/
def antennaFactor (RD : ℚ → Fl) (maxLevel mx : Fl) : Fl :=
  if Fl.eq mx (.fin 0) then .fin 1 else Fl.div RD maxLevel mx

/-- One iteration of the fitting loop with its continuation flag, aftimeblockencoder.cc:147-260. -/
def fitStep (RF RD : ℚ → Fl) (nPol nCh nAnt p : Nat) (maxLevel : Fl) (st : Block Cx × Buf Fl) :
    Option ((Block Cx × Buf Fl) × Bool) :=
  (bestChannel RD nPol nCh p maxLevel st.1).bind fun bc =>
  (antennaMax nPol nCh nAnt p st.1).bind fun mx =>
  (antennaIncrease RD nPol nCh nAnt p maxLevel mx st.1).bind fun inc =>
  (bestAntenna nAnt inc).bind fun ba =>
  if Fl.lt bc.increase ba.2 then
    (mx.rd ba.1).bind fun m =>
    if Fl.lt (antennaFactor RD maxLevel m) (.fin 1) then some (st, false)
    else (changeAntenna RF RD nPol nCh nAnt st ba.1 p (antennaFactor RD maxLevel m)).map fun st =>
      (st, Fl.lt (RD (101 / 100)) (antennaFactor RD maxLevel m))
  else if Fl.lt bc.factor (.fin 1) then some (st, false)
  else (changeChannel RF RD st (bc.channel * nPol + p) bc.factor).map fun st =>
    (st, Fl.lt (RD (1001 / 1000)) bc.factor)

/-- The loops over the polarisations with at most `fuel` iterations each; `some none` means that some loop
did not end. aftimeblockencoder.cc:147-261. -/
def fitPols (RF RD : ℚ → Fl) (nPol nCh nAnt : Nat) (maxLevel : Fl) (fuel : Nat) :
    Nat → Block Cx × Buf Fl → Option (Option (Block Cx × Buf Fl))
  | 0, st => some (some st)
  | p + 1, st => (fitPols RF RD nPol nCh nAnt maxLevel fuel p st).bind fun
    | none => some none
    | some st => doWhile (fitStep RF RD nPol nCh nAnt p maxLevel) fuel st

/-- `fitToMaximum`, aftimeblockencoder.cc:123-262. -/
def fitToMaximum (RF RD : ℚ → Fl) (nPol nCh nAnt : Nat) (maxLevel : Fl) (fuel : Nat)
    (st : Block Cx × Buf Fl) : Option (Option (Block Cx × Buf Fl)) :=
  (fitChannels RF RD nPol nCh maxLevel st).bind fun st =>
  fitPols RF RD nPol nCh nAnt maxLevel fuel nPol st

/-- RMS normalisation part of `encode`, aftimeblockencoder.cc:274-307. -/
def normalize (RF RD : ℚ → Fl) (sq : Fl → Fl) (nPol nCh nAnt : Nat) (st : Block Cx × Buf Fl) :
    Option (Block Cx × Buf Fl) :=
  (channelMeas RD (nPol * nCh) st.1).bind fun meas =>
  (normalizeChannels RF RD sq (nPol * nCh) meas st).bind fun st =>
  forRange nPol (fun p st => normalizeAntennas RF RD sq nPol nCh nAnt p st) st

/-- `encode` (with `_fitToMaximum`, which the only user sets: dyscodatacolumn.cc:20 and 73),
aftimeblockencoder.cc:264-329. -/
def encode (RF RD : ℚ → Fl) (sq : Fl → Fl) (enc : Fl → Nat → Option Nat) (maxLevel : Fl)
    (nPol nCh nAnt : Nat) (dith : Nat → Nat) (fuel : Nat) (data : Block Cx) (metaB : Buf Fl)
    (sym : Buf Nat) : Option (Option (Buf Fl × Buf Nat)) :=
  (normalize RF RD sq nPol nCh nAnt (data, metaB)).bind fun st =>
  (fitToMaximum RF RD nPol nCh nAnt maxLevel fuel st).bind fun
    | none => some none
    | some st => (quantise RF enc dith (nPol * nCh) st.1 sym).map fun sym => some (st.2, sym)

/-- `MetaDataCount`, aftimeblockencoder.h:57-60. -/
def metaDataCount (_nRow nPol nCh nAnt : Nat) : Nat := nPol * (nCh + nAnt)

/-- `InitializeDecode`, the antenna part (aftimeblockencoder.cc:406-410): `_rmsPerAntenna`. -/
def initAntennas (nPol nCh nAnt : Nat) (metaB : Buf Fl) : Option (Buf Fl) :=
  forRange nPol (fun p ant => forRange nAnt (fun a (ant : Buf Fl) =>
    (metaB.rd (nPol * nCh + (a + p * nAnt))).bind fun x => ant.wr (a * nPol + p) x) ant)
    ⟨nAnt * nPol, fun _ => .nan⟩

/-- `InitializeDecode` (aftimeblockencoder.cc:400-411) followed by `Decode` (413-439). -/
def decode (RF RD : ℚ → Fl) (dec : Nat → Option Fl) (nPol nCh nAnt : Nat) (metaB : Buf Fl)
    (rows : Block Cx) (sym : Buf Nat) (blockRow antenna1 antenna2 : Nat) : Option (Block Cx) :=
  (initAntennas nPol nCh nAnt metaB).bind fun ant =>
  (forRange nPol (fun p (fs : Buf Fl) => (ant.rd (antenna1 * nPol + p)).bind fun r1 =>
    (ant.rd (antenna2 * nPol + p)).bind fun r2 => fs.wr p (Fl.mul RD r1 r2))
    ⟨nPol, fun _ => .nan⟩).bind fun fs =>
  decodeRow RF RD dec (nPol * nCh) (fun i => (metaB.rd i).bind fun ch =>
    (fs.rd (i % nPol)).map fun f => Fl.mul RD ch f) rows sym blockRow antenna1 antenna2

end AF

end Dysco
