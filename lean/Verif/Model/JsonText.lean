import Verif.Model.Json

/-!
# Model of the text of JSON files and of writing them

`json.dump(data, f)` (json_exporter.py lines 43-45, structure_estimator.py lines 103-105) with its default arguments, `json.load(f)`
(json_importer.py lines 109-115), and the writing of a file, in which the process can be killed at any point.  The functions of
the standard library are modelled after CPython's `json.encoder` and `json.decoder`.
Simplifications: the text of a number is that of an arbitrary codec (`NumText`) reading back what it wrote; a run of characters
that can occur in numbers is read as one number; `NaN` and `Infinity`, and escapes of lone surrogates, which the package never
writes, are rejected.
-/

namespace PyCTBN

/-- The characters that occur in numbers. -/
def isNumChar (c : Char) : Bool := c.isDigit || c == '+' || c == '-' || c == '.' || c == 'e' || c == 'E'

/-- How numbers are written (`float.__repr__`, `int.__repr__`) and read. -/
structure NumText where
  text : ℚ → List Char
  read : List Char → Option ℚ
  /-- a number is written with these characters -/
  chars : ∀ q, ∀ c ∈ text q, isNumChar c = true
  /-- what is written can be read -/
  read_text : ∀ q, read (text q) = some q
  /-- no number is empty -/
  read_nil : read [] = none

/-! ## `json.dump` -/

/-- `'{0:x}'.format(d)` of one digit. -/
def hexDigit (d : Nat) : Char := if d < 10 then Char.ofNat (48 + d) else Char.ofNat (87 + d)

/-- `'\\u{0:04x}'.format(n)`. -/
def hexEscape (n : Nat) : List Char :=
  ['\\', 'u', hexDigit (n / 4096 % 16), hexDigit (n / 256 % 16), hexDigit (n / 16 % 16), hexDigit (n % 16)]

/-- `py_encode_basestring_ascii` of one character: quote, backslash and the usual control characters have short escapes, other
characters outside `' '..'~'` are written as `\uXXXX`, those beyond 16 bits as a surrogate pair. -/
def escapeChar (c : Char) : List Char :=
  if c = '"' then ['\\', '"']
  else if c = '\\' then ['\\', '\\']
  else if c = '\n' then ['\\', 'n']
  else if c = '\r' then ['\\', 'r']
  else if c = '\t' then ['\\', 't']
  else if c.toNat = 12 then ['\\', 'f']
  else if c.toNat = 8 then ['\\', 'b']
  else if 32 ≤ c.toNat ∧ c.toNat ≤ 126 then [c]
  else if c.toNat < 65536 then hexEscape c.toNat
  else hexEscape (55296 + (c.toNat - 65536) / 1024) ++ hexEscape (56320 + (c.toNat - 65536) % 1024)

/-- A string with its quotes. -/
def dumpStr (s : String) : List Char := '"' :: s.toList.flatMap escapeChar ++ ['"']

mutual
/-- `json.dump` with default arguments: separators `", "` and `": "`. -/
def dump (C : NumText) : JVal → List Char
  | .null => ['n', 'u', 'l', 'l']
  | .bool true => ['t', 'r', 'u', 'e']
  | .bool false => ['f', 'a', 'l', 's', 'e']
  | .num q => C.text q
  | .str s => dumpStr s
  | .arr [] => ['[', ']']
  | .arr (v :: vs) => '[' :: dump C v ++ dumpItems C vs
  | .obj [] => ['{', '}']
  | .obj ((k, v) :: fs) => '{' :: dumpStr k ++ ':' :: ' ' :: dump C v ++ dumpFields C fs
/-- The elements of a list after the first one, and the closing bracket. -/
def dumpItems (C : NumText) : List JVal → List Char
  | [] => [']']
  | v :: vs => ',' :: ' ' :: dump C v ++ dumpItems C vs
/-- The entries of a dictionary after the first one, and the closing brace. -/
def dumpFields (C : NumText) : List (String × JVal) → List Char
  | [] => ['}']
  | (k, v) :: fs => ',' :: ' ' :: dumpStr k ++ ':' :: ' ' :: dump C v ++ dumpFields C fs
end

/-! ## `json.load` -/

/-- `WHITESPACE.match(s, idx).end()`. -/
def skipWs (l : List Char) : List Char := l.dropWhile (fun c => c == ' ' || c == '\t' || c == '\n' || c == '\r')

/-- The character of an escape other than `\u`. -/
def simpleEscape (c : Char) : Option Char :=
  if c = '"' then some '"'
  else if c = '\\' then some '\\'
  else if c = '/' then some '/'
  else if c = 'b' then some (Char.ofNat 8)
  else if c = 'f' then some (Char.ofNat 12)
  else if c = 'n' then some '\n'
  else if c = 'r' then some '\r'
  else if c = 't' then some '\t'
  else none

/-- The value of a hexadecimal digit. -/
def hexVal (c : Char) : Option Nat :=
  if 48 ≤ c.toNat ∧ c.toNat ≤ 57 then some (c.toNat - 48)
  else if 97 ≤ c.toNat ∧ c.toNat ≤ 102 then some (c.toNat - 87)
  else if 65 ≤ c.toNat ∧ c.toNat ≤ 70 then some (c.toNat - 55)
  else none

/-- `_decode_uXXXX`: four hexadecimal digits. -/
def hex4 : List Char → Option (Nat × List Char)
  | a :: b :: c :: d :: r => do
    let a ← hexVal a
    let b ← hexVal b
    let c ← hexVal c
    let d ← hexVal d
    return (a * 4096 + b * 256 + c * 16 + d, r)
  | _ => none

/-- The second half of a surrogate pair. -/
def lowSurrogate (u : Nat) : List Char → Option (Char × List Char)
  | a :: b :: r =>
    if a = '\\' ∧ b = 'u' then do
      let (w, r) ← hex4 r
      if 56320 ≤ w ∧ w ≤ 57343 then some (Char.ofNat (65536 + (u - 55296) * 1024 + (w - 56320)), r) else none
    else none
  | _ => none

/-- What follows a backslash. -/
def scanEscape : List Char → Option (Char × List Char)
  | [] => none
  | e :: r =>
    if e = 'u' then do
      let (u, r) ← hex4 r
      if 55296 ≤ u ∧ u ≤ 56319 then lowSurrogate u r
      else if 56320 ≤ u ∧ u ≤ 57343 then none
      else some (Char.ofNat u, r)
    else (simpleEscape e).map (fun c => (c, r))

/-- One character of a string other than the closing quote; control characters are not allowed. -/
def scanChar (c : Char) (r : List Char) : Option (Char × List Char) :=
  if c = '\\' then scanEscape r
  else if c.toNat < 32 then none
  else some (c, r)

/-- `py_scanstring` after the opening quote; the first argument bounds the number of characters. -/
def scanStr : Nat → List Char → Option (List Char × List Char)
  | 0, _ => none
  | _ + 1, [] => none
  | n + 1, c :: r =>
    if c = '"' then some ([], r) else do
      let (ch, r) ← scanChar c r
      let (s, r) ← scanStr n r
      return (ch :: s, r)

/-- A literal. -/
def literal (w : List Char) (v : JVal) (r : List Char) : Option (JVal × List Char) :=
  if w <+: r then some (v, r.drop w.length) else none

/-- `dict(pairs)`. -/
def dictOf (ps : List (String × JVal)) : List (String × JVal) := ps.foldl (fun d p => dictSet d p.1 p.2) []

/-- A number: a run of number characters. -/
def scanNum (C : NumText) (l : List Char) : Option (JVal × List Char) := do
  let q ← C.read (l.takeWhile isNumChar)
  return (.num q, l.dropWhile isNumChar)

mutual
/-- `py_scan_once`; the first argument bounds the depth of the recursion (three times the length of the text suffices). -/
def scanVal (C : NumText) : Nat → List Char → Option (JVal × List Char)
  | 0, _ => none
  | _ + 1, [] => none
  | n + 1, c :: r =>
    if c = '"' then do
      let (s, r) ← scanStr n r
      return (.str (String.ofList s), r)
    else if c = '[' then scanArr C n (skipWs r)
    else if c = '{' then scanObj C n (skipWs r)
    else if c = 'n' then literal ['u', 'l', 'l'] .null r
    else if c = 't' then literal ['r', 'u', 'e'] (.bool true) r
    else if c = 'f' then literal ['a', 'l', 's', 'e'] (.bool false) r
    else scanNum C (c :: r)
/-- `JSONArray` after the bracket and blanks. -/
def scanArr (C : NumText) : Nat → List Char → Option (JVal × List Char)
  | 0, _ => none
  | n + 1, l =>
    if l.head? = some ']' then some (.arr [], l.tail) else do
      let (vs, r) ← scanItems C n l
      return (.arr vs, r)
/-- The elements of a list. -/
def scanItems (C : NumText) : Nat → List Char → Option (List JVal × List Char)
  | 0, _ => none
  | n + 1, l => do
    let (v, r) ← scanVal C n l
    match skipWs r with
    | [] => none
    | c :: r =>
      if c = ']' then return ([v], r)
      else if c = ',' then do
        let (vs, r) ← scanItems C n (skipWs r)
        return (v :: vs, r)
      else none
/-- `JSONObject` after the brace and blanks. -/
def scanObj (C : NumText) : Nat → List Char → Option (JVal × List Char)
  | 0, _ => none
  | n + 1, l =>
    if l.head? = some '}' then some (.obj [], l.tail) else do
      let (fs, r) ← scanFields C n l
      return (.obj (dictOf fs), r)
/-- The entries of a dictionary, in the order of the text. -/
def scanFields (C : NumText) : Nat → List Char → Option (List (String × JVal) × List Char)
  | 0, _ => none
  | _ + 1, [] => none
  | n + 1, c :: l =>
    if c = '"' then do
      let (k, r) ← scanStr n l
      match skipWs r with
      | [] => none
      | c :: r =>
        if c = ':' then do
          let (v, r) ← scanVal C n (skipWs r)
          match skipWs r with
          | [] => none
          | c :: r =>
            if c = '}' then return ([(String.ofList k, v)], r)
            else if c = ',' then do
              let (fs, r) ← scanFields C n (skipWs r)
              return ((String.ofList k, v) :: fs, r)
            else none
        else none
    else none
end

/-- `json.load`: one value with blanks around it; anything else is a `JSONDecodeError`, a `ValueError`. -/
def load (C : NumText) (text : List Char) : Py JVal :=
  match scanVal C (3 * text.length + 3) (skipWs text) with
  | some (v, r) => if skipWs r = [] then .ok v else .error .valueError
  | none => .error .valueError

/-! ## `save_results` -/

/-- `json_graph.node_link_data(graph)`, structure_estimator.py line 103: the nodes and the links of the estimated graph. -/
def resultsJson (nodes : List Label) (links : List Edge) : JVal :=
  .obj [("directed", .bool true), ("multigraph", .bool false), ("graph", .obj []),
    ("nodes", .arr (nodes.map (fun n => .obj [("id", .str n)]))),
    ("links", .arr (links.map (fun e => .obj [("source", .str e.1), ("target", .str e.2)])))]

/-- What a reader of the results (such as networkx' `node_link_graph`) takes from the loaded value: the nodes and the links. -/
def readResults (v : JVal) : Py (List Label × List Edge) := do
  let ns ← (← v.key "nodes").items
  let nodes ← ns.mapM (fun n => do (← n.key "id").node)
  let ls ← (← v.key "links").items
  let links ← ls.mapM (fun l => do
    let a ← (← l.key "source").node
    let b ← (← l.key "target").node
    return (a, b))
  return (nodes, links)

/-! ## Writing a file -/

/-- A process writing a file: the contents of the file (`none`: no such file), what the file object has buffered, and what
`json.dump` has still to write.  `opened` is false until `open(path, 'w')`. -/
structure Writer where
  disk : Option (List Char)
  opened : Bool
  buffer : List Char
  todo : List Char

namespace Writer

/-- The steps of `with open(path, 'w') as f: json.dump(data, f)`, json_exporter.py lines 44-45 and structure_estimator.py lines 104-105.
Opening truncates the file; `json.dump` hands its text to the file object in pieces of any size; the file object passes on any
part of its buffer at any time (at the latest when it is closed). -/
inductive Step : Writer → Writer → Prop
  | openFile {d : Option (List Char)} {todo : List Char} : Step ⟨d, false, [], todo⟩ ⟨some [], true, [], todo⟩
  | write {d : Option (List Char)} {b p todo : List Char} : Step ⟨d, true, b, p ++ todo⟩ ⟨d, true, b ++ p, todo⟩
  | flush {d : List Char} {p b todo : List Char} : Step ⟨some d, true, p ++ b, todo⟩ ⟨some (d ++ p), true, b, todo⟩

/-- The states a process can be in that starts writing `text` to a file with contents `old`. -/
inductive Reaches (old : Option (List Char)) (text : List Char) : Writer → Prop
  | start : Reaches old text ⟨old, false, [], text⟩
  | step {w w' : Writer} : Reaches old text w → Step w w' → Reaches old text w'

/-- The file has been written and closed. -/
def Done (w : Writer) : Prop := w.opened = true ∧ w.buffer = [] ∧ w.todo = []

end Writer
end PyCTBN
