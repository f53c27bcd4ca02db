import Verif.Noise

/-!
Model of the plots of `Noise` objects (`/repo/qetpy/plotting/_noise_plotting.py` lines 18-508, and the methods
of `Noise` that call them, `/repo/qetpy/core/_noise.py` 408-508).  A figure is the list of its panels; messages,
colours and the titles of whole figures are left out.
-/

namespace Verif.NoisePlot
open Verif Noise

variable {m c n : ℕ}

/-- A drawn line. -/
structure Line where
  label : String
  pts : List (ℝ × ℝ)

/-- One pair of axes: row and column in the figure, title and lines. -/
structure Panel where
  cell : ℕ × ℕ
  title : Option String
  lines : List Line

abbrev Fig := List Panel

/-- What a call leaves behind: the figures shown and the files written. -/
structure Out where
  shown : List Fig
  files : List (String × Fig)

/-- A `Noise` object with its names. -/
structure Src (m c n : ℕ) where
  o : Obj m c n
  channames : Fin c → String
  name : Option String

open Classical in
/-- `loglog(freqs[1:], y[1:])`: `nan` and values that are not positive have no point. -/
noncomputable def logPts (fs : ℝ) (y : Half n → ℝ) : List (ℝ × ℝ) :=
  ((List.finRange (n / 2 + 1)).drop 1).filterMap fun k =>
    if 0 < y k then some (rfftfreq fs k, y k) else none

/-- `np.sqrt(y)`; the `nan` for negative values and zero are both not drawn. -/
noncomputable def root (y : Half n → ℝ) : Half n → ℝ := fun k => Real.sqrt (y k)

/-- `name.replace(" ", "_")`. -/
def under (s : String) : String := String.ofList (s.toList.map fun ch => if ch = ' ' then '_' else ch)

/-- The saving branches: every exception (no path, no name) is caught. -/
def save (s : Src m c n) (lgcsave : Bool) (savepath : Option String) (suffix : String) (fig : Fig) :
    List (String × Fig) :=
  if lgcsave then
    match savepath, s.name with
    | some p, some nm => [(p ++ under nm ++ suffix, fig)]
    | _, _ => []
  else []

/-- `int(ceil(num_subplots / 2))`. -/
def rows (c : ℕ) : ℕ := (c + 1) / 2

/-- `irow, jcolumn`.  Lines 67-73. -/
def cell (nrows ii : ℕ) : ℕ × ℕ := if ii < nrows then (ii, 0) else (ii - nrows, 1)

/-- The panels of the subplots; axes without a channel are switched off.  `plt.subplots` raises ValueError
without rows.  Lines 62-92, 122-154, 351-434. -/
def subplots (s : Src m c n) (lines : Fin c → List Line) : Except Err Fig :=
  if c = 0 then .error .valueError
  else .ok ((List.range (rows c * 2)).filterMap fun (ii : ℕ) =>
    if h : ii < c then some ⟨cell (rows c) ii, some (s.channames ⟨ii, h⟩), lines ⟨ii, h⟩⟩ else none)

/-- One line per channel in one panel.  Lines 41-49, 330-337. -/
noncomputable def overlay (s : Src m c n) (y : Fin c → Half n → ℝ) : Fig :=
  [⟨(0, 0), none, (List.finRange c).map fun i => ⟨s.channames i, logPts s.o.fs (root (y i))⟩⟩]

/-- Show and save. -/
def done (s : Src m c n) (lgcsave : Bool) (savepath : Option String) (suffix : String) :
    Except Err Fig → Except Err Out
  | .error e => .error e
  | .ok fig => .ok ⟨[fig], save s lgcsave savepath suffix fig⟩

/-- `plot_psd`.  Lines 36-98. -/
noncomputable def plotPsd (s : Src m c n) (lgcoverlay lgcsave : Bool) (savepath : Option String) : Except Err Out :=
  match s.o.psd with
  | none => .ok ⟨[], []⟩
  | some p =>
    if lgcoverlay then done s lgcsave savepath "_PSD_overlay.png" (.ok (overlay s p))
    else done s lgcsave savepath "_PSD_subplot.png"
      (subplots s fun i => [⟨"", logPts s.o.fs (root (p i))⟩])

/-- `plot_reim_psd`.  Lines 118-161. -/
noncomputable def plotReimPsd (s : Src m c n) (lgcsave : Bool) (savepath : Option String) : Except Err Out :=
  match s.o.realPsd, s.o.imagPsd with
  | none, _ => .ok ⟨[], []⟩
  | some _, none => .error .typeError
  | some re, some im => done s lgcsave savepath "_ReIm_PSD.png"
      (subplots s fun i => [⟨"real", logPts s.o.fs (root (re i))⟩, ⟨"imag", logPts s.o.fs (root (im i))⟩])

/-- The method `plot_reim_psd`: it passes on neither argument.  `core/_noise.py` 439. -/
noncomputable def plotReimPsdMethod (s : Src m c n) (_lgcsave : Bool) (_savepath : Option String) :
    Except Err Out := plotReimPsd s false none

/-! ### plot_corrcoeff -/

/-- `x[i - 3]` with the array continued by its first and last entries (`mode='nearest'`). -/
def nearest (x : List (Option ℝ)) (i : ℕ) : Option ℝ := (x[min (i - 3) (x.length - 1)]?).join

/-- The weights of `savgol_filter(x, 7, 3)`. -/
noncomputable def weights : List ℝ := [-2 / 21, 3 / 21, 6 / 21, 7 / 21, 6 / 21, 3 / 21, -2 / 21]

/-- `savgol_filter(x, 7, 3, mode='nearest')`; `none` is `nan`. -/
noncomputable def savgol (x : List (Option ℝ)) : List (Option ℝ) :=
  (List.range x.length).map fun (i : ℕ) => (weights.zipIdx).foldl (fun acc p =>
    match acc, nearest x (i + p.2) with
    | some a, some v => some (a + p.1 * v)
    | _, _ => none) (some 0)

/-- The points of `plt.plot(freqs[1:], y)`. -/
noncomputable def linPts (fs : ℝ) (y : List (Option ℝ)) : List (ℝ × ℝ) :=
  (((List.finRange (n / 2 + 1)).drop 1).zip y).filterMap fun p =>
    p.2.map fun v => (rfftfreq fs p.1, v)

/-- `plot_corrcoeff` with the default window.  Lines 186-221. -/
noncomputable def plotCorrcoeff (s : Src m c n) (lgcsmooth lgcsave : Bool) (savepath : Option String) :
    Except Err Out :=
  match s.o.corrcoeff with
  | none => .ok ⟨[], []⟩
  | some r =>
    done s lgcsave savepath "_corrcoeff.png" (.ok [⟨(0, 0), none,
      (List.finRange c).flatMap fun i => (List.finRange c).filterMap fun j =>
        if j < i then
          let y := ((List.finRange (n / 2 + 1)).drop 1).map (r i j)
          some ⟨s.channames i ++ " - " ++ s.channames j,
            linPts (n := n) s.o.fs (if lgcsmooth then savgol y else y)⟩
        else none⟩])

/-! ### plot_csd -/

/-- An element of `whichcsd`: a string, or anything else. -/
inductive Label where
  | str (l : List Char)
  | other

/-- `int(label[i])` for ASCII characters. -/
def digit (l : List Char) (i : ℕ) : Except Err ℕ :=
  match l[i]? with
  | none => .error .indexError
  | some ch => if ch.isDigit then .ok (ch.toNat - 48) else .error .valueError

/-- The selection; `none` means that a message is printed and nothing drawn.  Lines 249-260. -/
def select (c : ℕ) : List Label → Except Err (Option (List (Fin c × Fin c)))
  | [] => .ok (some [])
  | .other :: _ => .ok none
  | .str l :: rest =>
    match digit l 0 with
    | .error e => .error e
    | .ok x =>
      match digit l 1 with
      | .error e => .error e
      | .ok y =>
        if h : x < c ∧ y < c then
          match select c rest with
          | .error e => .error e
          | .ok none => .ok none
          | .ok (some ps) => .ok (some ((⟨x, h.1⟩, ⟨y, h.2⟩) :: ps))
        else .ok none

/-- The figure of one pair of channels.  Lines 263-283. -/
noncomputable def csdFig (s : Src m c n) (d : Csd c n) (lgcreal : Bool) (p : Fin c × Fin c) : Fig :=
  [⟨(0, 0), some (s.channames p.1 ++ "-" ++ s.channames p.2),
    [⟨"", logPts s.o.fs (if lgcreal then d.real p.1 p.2 else d.imag p.1 p.2)⟩]⟩]

/-- `plot_csd`.  Lines 245-290. -/
noncomputable def plotCsd (s : Src m c n) (whichcsd : List Label) (lgcreal lgcsave : Bool)
    (savepath : Option String) : Except Err Out :=
  match s.o.csd with
  | none => .ok ⟨[], []⟩
  | some d =>
    match select c whichcsd with
    | .error e => .error e
    | .ok none => .ok ⟨[], []⟩
    | .ok (some ps) => .ok ⟨ps.map (csdFig s d lgcreal), (ps.zipIdx.map fun p =>
        save s lgcsave savepath ("_csd" ++ toString p.2 ++ ".png") (csdFig s d lgcreal p.1)).flatten⟩

/-! ### plot_decorrelatednoise -/

/-- `plot_decorrelatednoise`.  Lines 323-441.  Objects have the CSD and both parts, or none of the parts. -/
noncomputable def plotDecorr (s : Src m c n) (lgcoverlay lgcdata lgcuncorr lgccorr lgcsum lgcsave : Bool)
    (savepath : Option String) : Except Err Out :=
  match s.o.uncorr, s.o.csd, s.o.corr with
  | none, _, _ => .ok ⟨[], []⟩
  | some u, some d, some r =>
    if lgcoverlay then done s lgcsave savepath "_deCorrNoise_overlay.png" (.ok (overlay s u))
    else done s lgcsave savepath "_deCorrNoise_subplot.png" (subplots s fun i =>
      (if lgcdata then [⟨"Data", logPts s.o.fs (root (d.real i i))⟩] else []) ++
      (if lgcuncorr then [⟨"Uncorrelated Noise", logPts s.o.fs (root (u i))⟩] else []) ++
      (if lgccorr then [⟨"Correlated Noise", logPts s.o.fs (root (r i))⟩] else []) ++
      (if lgcsum then [⟨"Total Noise", logPts s.o.fs (root fun k => u i k + r i k)⟩] else []))
  | some _, _, _ => .error .typeError

/-! ### compare_noise -/

/-- What `compare_noise` reads of a noise object: name, channel names, and the curves by channel number. -/
structure CmpObj where
  name : String
  channames : List String
  psd : ℕ → List (ℝ × ℝ)
  uncorr : Option (ℕ → List (ℝ × ℝ))

/-- The attribute `chann_dict`: the class only defines `chandict` (`core/_noise.py` 266-269). -/
def CmpObj.channDict (_ : CmpObj) : Except Err (String → Option ℕ) := .error .attributeError

/-- The loop over the objects for one channel.  Lines 476-494. -/
def cmpLines (ch : String) (decorr : Bool) : List CmpObj → Except Err (List Line)
  | [] => .ok []
  | o :: rest =>
    match o.channDict with
    | .error e => .error e
    | .ok dict =>
      match cmpLines ch decorr rest with
      | .error e => .error e
      | .ok ls =>
        match dict ch with
        | none => .ok ls
        | some i =>
          if decorr then
            match o.uncorr with
            | none => .ok ls
            | some u => .ok (⟨o.name ++ " Decorrelated Noise", u i⟩ :: ls)
          else .ok (⟨o.name, o.psd i⟩ :: ls)

/-- `compare_noise`; `none` is an argument `channels` that is neither a list nor an array.  Lines 467-508. -/
def compareNoise (arr : List CmpObj) (channels : Option (List String)) (decorr : Bool) :
    Except Err (List Panel) :=
  match channels with
  | none => .ok []
  | some l => go l
where
  go : List String → Except Err (List Panel)
  | [] => .ok []
  | ch :: rest =>
    if ch ∈ (arr.map CmpObj.channames).flatten then
      match cmpLines ch decorr arr with
      | .error e => .error e
      | .ok ls =>
        match go rest with
        | .error e => .error e
        | .ok ps => .ok (⟨(0, 0), some ch, ls⟩ :: ps)
    else go rest

end Verif.NoisePlot
