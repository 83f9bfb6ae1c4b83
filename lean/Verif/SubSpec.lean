/-!
# Specification of subtitles

What cues a track has, and readers of WebVTT and TTML. Nothing of the model is used.
-/

namespace Verif.SubSpec

abbrev Bytes := List UInt8

/-- A cue: from when to when it is shown, and its data. -/
structure Cue where
  start : Int
  stop : Int
  data : Bytes
deriving Repr, DecidableEq

/-- The cues of frames (time to the next one, time shown, data), the first of which starts at `t`. -/
def cues : Int → List (Nat × Nat × Bytes) → List Cue
  | _, [] => []
  | t, (dur, delay, d) :: l => ⟨t, t + delay, d⟩ :: cues (t + dur) l

/-- The part of a cue that is between `s` and `e`, if there is one. -/
def Cue.within (s e : Int) (c : Cue) : Option Cue :=
  if max c.start s < min c.stop e then some ⟨max c.start s, min c.stop e, c.data⟩ else none

/-- The bytes of a string. -/
def str (s : String) : Bytes := s.toList.map fun c => UInt8.ofNat c.toNat

/-- A time in milliseconds, to the nearest one. -/
def ms (timescale : Nat) (t : Int) : Nat := (t.toNat * 1000 + timescale / 2) / timescale

/-! ## Samples -/

/-- A box of an MP4 file: size, name, content. -/
def box (name content : Bytes) : Bytes :=
  let n := content.length + 8
  [UInt8.ofNat (n / 2 ^ 24), UInt8.ofNat (n / 2 ^ 16), UInt8.ofNat (n / 2 ^ 8), UInt8.ofNat n] ++ name ++ content

/-- A sample of WebVTT in MP4 (ISO/IEC 14496-30): one cue with text and settings, or no cue. -/
inductive Sample : Bytes → Option (Bytes × Bytes) → Prop where
  | cue (kids : List (Bytes × Bytes)) (text settings : Bytes) :
      (kids.map (·.1)).Nodup → (∀ k ∈ kids, k.1.length = 4) → (str "payl", text) ∈ kids → text ≠ [] →
      ((str "sttg", settings) ∈ kids ∨ (settings = [] ∧ ∀ k ∈ kids, k.1 ≠ str "sttg")) →
      (box (str "vttc") (kids.flatMap fun k => box k.1 k.2)).length < 2 ^ 32 →
      Sample (box (str "vttc") (kids.flatMap fun k => box k.1 k.2)) (some (text, settings))
  | empty : Sample (box (str "vtte") []) none

/-! ## Text -/

/-- The lines of a text; a line ends with CR LF, LF or CR. -/
def lines : Bytes → List Bytes
  | [] => [[]]
  | [c] => if c = 10 ∨ c = 13 then [[], []] else [[c]]
  | c :: d :: b =>
    if c = 13 ∧ d = 10 then [] :: lines b
    else if c = 10 ∨ c = 13 then [] :: lines (d :: b)
    else match lines (d :: b) with
      | l :: ls => (c :: l) :: ls
      | [] => [[c]]

/-- Whether a line has an arrow. -/
def hasArrow : Bytes → Bool
  | [] => false
  | c :: b => (str "-->").isPrefixOf (c :: b) || hasArrow b

/-- A decimal digit. -/
def isDigit (c : UInt8) : Bool := 48 ≤ c && c ≤ 57

/-- The value of decimal digits. -/
def value (b : Bytes) : Nat := b.foldl (fun n c => n * 10 + (c.toNat - 48)) 0

/-- What is after a prefix. -/
def after (p b : Bytes) : Option Bytes := if p.isPrefixOf b then some (b.drop p.length) else none

/-- `n` digits. -/
def fixed (n : Nat) (b : Bytes) : Option (Nat × Bytes) :=
  if (b.take n).length = n ∧ (b.take n).all isDigit then some (value (b.take n), b.drop n) else none

/-- A time in milliseconds: two or more digits of hours, minutes, seconds, milliseconds. -/
def readTime (b : Bytes) : Option (Nat × Bytes) := do
  let h := b.takeWhile isDigit
  if h.length < 2 then none
  else do
    let b ← after (str ":") (b.dropWhile isDigit)
    let (m, b) ← fixed 2 b
    let b ← after (str ":") b
    let (s, b) ← fixed 2 b
    let b ← after (str ".") b
    let (ms, b) ← fixed 3 b
    if m < 60 ∧ s < 60 then some (((value h * 60 + m) * 60 + s) * 1000 + ms, b) else none

/-! ## WebVTT -/

/-- A cue of WebVTT: times in milliseconds, settings, lines of text. -/
structure Vtt where
  start : Nat
  stop : Nat
  settings : Bytes
  text : List Bytes
deriving Repr, DecidableEq

/-- The line of times of a cue. -/
def readTiming (b : Bytes) : Option Vtt := do
  let (s, b) ← readTime b
  let b ← after (str " --> ") b
  let (e, b) ← readTime b
  match b with
  | [] => some ⟨s, e, [], []⟩
  | c :: b => if c = 32 then some ⟨s, e, b, []⟩ else none

/-- The cues of lines; `cur` is the cue whose text is read. A line with an arrow starts a cue, an empty line ends it, lines outside of
cues are left out. -/
def readLines : Option Vtt → List Bytes → List Vtt
  | cur, [] => cur.toList
  | cur, l :: ls =>
    if hasArrow l then cur.toList ++ readLines (readTiming l) ls
    else if l = [] then cur.toList ++ readLines none ls
    else readLines (cur.map fun c => { c with text := c.text ++ [l] }) ls

/-- The cues of a WebVTT file. -/
def readVtt (b : Bytes) : List Vtt := readLines none (lines b)

/-- What the text and the settings of a cue have to be in WebVTT: no line of the text is empty or has an arrow, the settings are one line. -/
structure CueOk (c : Bytes × Bytes) : Prop where
  text : ∀ l ∈ lines c.1, l ≠ [] ∧ hasArrow l = false
  settings : ∀ x ∈ c.2, x ≠ 10 ∧ x ≠ 13

/-- The cue that a client has to read for a cue with text and settings, when times are counted from `base`. -/
def shown (timescale : Nat) (base : Int) (c : Cue) (x : Bytes × Bytes) : Vtt :=
  ⟨ms timescale (c.start - base), ms timescale (c.stop - base), x.2, lines x.1⟩

/-! ## TTML -/

/-- A piece of XML. -/
inductive Tok where
  | tag (b : Bytes)
  | char (c : UInt8)
deriving Repr, DecidableEq

/-- The entities of XML. -/
def entities : List (Bytes × UInt8) := [(str "amp;", 38), (str "lt;", 60), (str "gt;", 62), (str "quot;", 34), (str "apos;", 39)]

/-- The tags and the characters of XML; `none` if there is a reference to an entity that XML does not have, or a tag with no end. The
first argument bounds the number of turns. -/
def toks : Nat → Bytes → Option (List Tok)
  | _, [] => some []
  | 0, _ :: _ => none
  | n + 1, c :: b =>
    if c = 60 then
      let t := b.takeWhile (· ≠ 62)
      if t.length = b.length then none else (toks n (b.drop (t.length + 1))).map (.tag t :: ·)
    else if c = 38 then
      match entities.find? fun x => x.1.isPrefixOf b with
      | none => none
      | some x => (toks n (b.drop x.1.length)).map (.char x.2 :: ·)
    else (toks n b).map (.char c :: ·)

/-- A paragraph of TTML: times in milliseconds and text. -/
structure Para where
  start : Nat
  stop : Nat
  text : Bytes
deriving Repr, DecidableEq

/-- The tag of a paragraph. -/
def readTag (b : Bytes) : Option Para := do
  let b ← after (str "p begin=\"") b
  let (s, b) ← readTime b
  let b ← after (str "\" end=\"") b
  let (e, b) ← readTime b
  if b = str "\"" then some ⟨s, e, []⟩ else none

/-- The paragraphs; `cur` is the open one. `none` if a paragraph has a tag within it or no end. -/
def paras : Option Para → List Tok → Option (List Para)
  | none, [] => some []
  | some _, [] => none
  | none, .char _ :: l => paras none l
  | none, .tag t :: l => match readTag t with | none => paras none l | some p => paras (some p) l
  | some p, .char c :: l => paras (some { p with text := p.text ++ [c] }) l
  | some p, .tag t :: l => if t = str "/p" then (paras none l).map (p :: ·) else none

/-- The text of a payload of WebVTT: without its tags, with the entities replaced. -/
def plain (b : Bytes) : Option Bytes :=
  (toks b.length b).map fun l => l.filterMap fun t => match t with | .char c => some c | .tag _ => none

/-- The paragraphs of a TTML document. -/
def readTtml (b : Bytes) : Option (List Para) := (toks b.length b).bind (paras none)

/-- The paragraph that a client has to read for a cue that shows `s`. -/
def para (timescale : Nat) (c : Cue) (s : Bytes) : Para := ⟨ms timescale c.start, ms timescale c.stop, s⟩

/-- The text that a cue shows. -/
def textOf (x : Option (Bytes × Bytes)) : Option Bytes := x.bind fun x => plain x.1

end Verif.SubSpec
