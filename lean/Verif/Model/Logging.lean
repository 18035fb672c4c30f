import Verif.Base.Res
import Mathlib.Algebra.Order.Field.Rat

/-!
# Logging

`emote/mixins/logging.py`. Numbers are exact rationals. Images and videos are not modelled: they are plain
dict entries that nothing in the package reads except a writer.
-/

namespace Verif

/-- A value given to `log_windowed_scalar` or `log_histogram`: a number or an iterable of numbers. -/
inductive LogVal where
  | one (x : Rat)
  | many (xs : List Rat)
  deriving DecidableEq, Repr

/-- `collections.deque(maxlen=…)`. -/
structure Window where
  maxlen : Nat
  vals : List Rat
  deriving DecidableEq, Repr

namespace Window

/-- `deque.append`: on a full deque the oldest element goes; with `maxlen=0` nothing is kept. -/
def append (w : Window) (x : Rat) : Window :=
  if w.maxlen = 0 then w
  else { w with vals := if w.vals.length < w.maxlen then w.vals ++ [x] else w.vals.drop 1 ++ [x] }

/-- `deque.extend` -/
def extend (w : Window) (xs : List Rat) : Window := xs.foldl append w

/-- `sum(window) / len(window)` -/
def mean (w : Window) : Except Err Rat :=
  if w.vals.length = 0 then .error .zeroDivision else .ok (w.vals.sum / w.vals.length)

end Window

/-- An entry of `hist_logs`: a deque, or an iterable as it was given (a list; that tensors have no `append` is
not modelled). -/
inductive HistLog where
  | deque (w : Window)
  | given (xs : List Rat)
  deriving DecidableEq, Repr

/-- The fields of `LoggingMixin`, `logging.py` 17-27. -/
structure Logs where
  scalar : Dict String Rat
  windowed : Dict String Window
  cumulative : Dict String Rat
  hist : Dict String HistLog
  defaultLength : Nat
  deriving DecidableEq, Repr

/-- `s.split(c)` on the characters of `s`. -/
def splitChar (c : Char) : List Char → List (List Char)
  | [] => [[]]
  | x :: xs =>
    if x = c then [] :: splitChar c xs
    else match splitChar c xs with
      | [] => [[x]]
      | l :: ls => (x :: l) :: ls

/-- `pat in s` -/
def hasSub (pat : List Char) : List Char → Bool
  | [] => pat.isEmpty
  | x :: xs => pat.isPrefixOf (x :: xs) || hasSub pat xs

/-- `int(s)` for a string of decimal digits; everything else is taken to be a `ValueError` (Python also accepts
signs, blanks and underscores around and between the digits). -/
def parseNat (s : List Char) : Except Err Nat :=
  if !s.isEmpty && s.all (fun c => '0' ≤ c && c ≤ '9') then
    .ok (s.foldl (fun n c => 10 * n + (c.toNat - '0'.toNat)) 0)
  else .error .valueError

namespace Logs

/-- `logging.py` 17-27 -/
def new (defaultLength : Nat) : Logs := ⟨[], [], [], [], defaultLength⟩

/-- The window length for a new key, `logging.py` 51-55. -/
def windowLength (default : Nat) (key : String) : Except Err Nat :=
  if hasSub "windowed[".toList key.toList then
    match splitChar ':' key.toList with
    | [] => .error .indexError
    | p :: _ => match splitChar '[' p with
      | _ :: q :: _ => parseNat q.dropLast
      | _ => .error .indexError
  else .ok default

/-- `log_scalar`, `logging.py` 29-34 -/
def logScalar (key : String) (v : Rat) (l : Logs) : Logs := { l with scalar := l.scalar.set key v }

/-- `logging.py` 60-67, the window and its sum being there. -/
def pushWindow (key : String) (v : LogVal) (l : Logs) : Res Logs Unit :=
  match l.windowed.get? key with
  | none => (l, .error .keyError)
  | some w =>
    let l := { l with
      windowed := l.windowed.set key (match v with
        | .many xs => w.extend xs
        | .one x => w.append x) }
    match l.cumulative.get? key with
    | none => (l, .error .keyError)
    | some c =>
      ({ l with
          cumulative := l.cumulative.set key (c + match v with
            | .many xs => xs.sum
            | .one x => x) }, .ok ())

/-- `log_windowed_scalar`, `logging.py` 36-67 -/
def logWindowed (key : String) (v : LogVal) (l : Logs) : Res Logs Unit :=
  if l.windowed.contains key then pushWindow key v l
  else match windowLength l.defaultLength key with
    | .error e => (l, .error e)
    | .ok n =>
      pushWindow key v { l with
        windowed := l.windowed.set key ⟨n, []⟩
        cumulative := l.cumulative.set key 0 }

/-- `log_histogram`, `logging.py` 78-89 -/
def logHistogram (key : String) (v : LogVal) (l : Logs) : Logs :=
  match v with
  | .many xs => { l with hist := l.hist.set key (.given xs) }
  | .one x => match l.hist.get? key with
    | none => { l with hist := l.hist.set key (.deque ((⟨l.defaultLength, []⟩ : Window).append x)) }
    | some (.deque w) => { l with hist := l.hist.set key (.deque (w.append x)) }
    | some (.given xs) => { l with hist := l.hist.set key (.given (xs ++ [x])) }

/-- `state_dict`, `logging.py` 91-109. -/
structure Saved where
  scalar : Dict String Rat
  hist : Dict String HistLog
  windowed : Dict String (List Rat × Nat)
  cumulative : Dict String Rat
  deriving DecidableEq, Repr

/-- `state_dict`, `logging.py` 101-108 -/
def stateDict (l : Logs) : Saved :=
  ⟨l.scalar, l.hist, l.windowed.map fun kw => (kw.1, (kw.2.vals, kw.2.maxlen)), l.cumulative⟩

/-- `deque(v[0], maxlen=v[1])` for a deque `v` of numbers, `logging.py` 124: `v[0]` is missing, or a number,
over which one cannot iterate. -/
def rebuild (w : Window) : Except Err Window :=
  match w.vals with
  | [] => .error .indexError
  | [_] => .error .indexError
  | _ :: _ :: _ => .error .typeError

/-- The comprehension in `logging.py` 123-125. It goes over `self.windowed_scalar`, not over the saved one. -/
def rebuildAll : Dict String Window → Except Err (Dict String Window)
  | [] => .ok []
  | (k, w) :: rest => match rebuild w with
    | .error e => .error e
    | .ok w' => match rebuildAll rest with
      | .error e => .error e
      | .ok rest' => .ok ((k, w') :: rest')

/-- `load_state_dict` with `load_hparams`, `logging.py` 111-128 -/
def loadStateDict (s : Saved) (l : Logs) : Res Logs Unit :=
  let l := { l with scalar := s.scalar, hist := s.hist }
  match rebuildAll l.windowed with
  | .error e => (l, .error e)
  | .ok w => ({ l with windowed := w, cumulative := s.cumulative }, .ok ())

end Logs

end Verif
