import Verif.Model.Graphology

/-! Model of `json.load` as called by `read_graphology_json` (pelote/read.py:90-96), of `json.dumps` with the
default options, as used on what `write_graphology_json` returns, and of the dispatch on the type of the target.

This part models the standard library (`json/decoder.py`, `json/scanner.py`, `json/encoder.py`), on a text which
is already decoded.  Simplifications: a float is identified with its text; a `\u` escape which is a surrogate
without its other half is an error (Python keeps it in the string, a Lean string cannot hold it); the limit on the
depth of recursion and the limit on the number of digits of an integer are not modelled. -/
namespace Pelote
namespace Json

/-! ### Decoding -/

/-- White space (`WHITESPACE` of json/decoder.py). -/
def isWs (c : Char) : Bool := c == ' ' || c == '\t' || c == '\n' || c == '\r'

/-- `_w(s, end).end()`. -/
def skipWs (s : List Char) : List Char := s.dropWhile isWs

/-- A hexadecimal digit. -/
def hexDigit (c : Char) : Option Nat :=
  if '0' ≤ c ∧ c ≤ '9' then some (c.toNat - '0'.toNat)
  else if 'a' ≤ c ∧ c ≤ 'f' then some (c.toNat - 'a'.toNat + 10)
  else if 'A' ≤ c ∧ c ≤ 'F' then some (c.toNat - 'A'.toNat + 10)
  else none

/-- `_decode_uXXXX` of json/decoder.py: four hexadecimal digits. -/
def hex4 : List Char → Option (Nat × List Char)
  | a :: b :: c :: d :: s =>
    match hexDigit a, hexDigit b, hexDigit c, hexDigit d with
    | some a, some b, some c, some d => some (((a * 16 + b) * 16 + c) * 16 + d, s)
    | _, _, _, _ => none
  | _ => none

/-- `BACKSLASH` of json/decoder.py. -/
def backslash : List (Char × Char) :=
  [('"', '"'), ('\\', '\\'), ('/', '/'), ('b', Char.ofNat 8), ('f', Char.ofNat 12), ('n', '\n'), ('r', '\r'),
    ('t', '\t')]

/-- What follows `\u`: a character of the basic plane, or a high surrogate and the `\u` escape of a low one. -/
def scanUnicode (s : List Char) : Option (Char × List Char) :=
  match hex4 s with
  | none => none
  | some (n, s) =>
    if 0xd800 ≤ n ∧ n ≤ 0xdbff then
      match s with
      | '\\' :: 'u' :: s =>
        match hex4 s with
        | none => none
        | some (m, s) =>
          if 0xdc00 ≤ m ∧ m ≤ 0xdfff then some (Char.ofNat (0x10000 + (n - 0xd800) * 1024 + (m - 0xdc00)), s)
          else none
      | _ => none
    else if 0xdc00 ≤ n ∧ n ≤ 0xdfff then none
    else some (Char.ofNat n, s)

/-- What follows a backslash. -/
def scanEscape : List Char → Option (Char × List Char)
  | [] => none
  | e :: s =>
    if e = 'u' then scanUnicode s
    else
      match Dict.get? backslash e with
      | some c => some (c, s)
      | none => none

/-- `scanstring` of json/decoder.py, after the opening quote; control characters are refused. -/
def scanString : Nat → List Char → Option (List Char × List Char)
  | 0, _ => none
  | _ + 1, [] => none
  | fuel + 1, c :: s =>
    if c = '"' then some ([], s)
    else if c = '\\' then
      match scanEscape s with
      | none => none
      | some (c, s) => (scanString fuel s).map (fun p => (c :: p.1, p.2))
    else if c.toNat < 0x20 then none
    else (scanString fuel s).map (fun p => (c :: p.1, p.2))

/-- A decimal digit. -/
def isDec (c : Char) : Bool := decide ('0' ≤ c ∧ c ≤ '9')

/-- `0|[1-9]\d*`, from `NUMBER_RE` of json/scanner.py: the text matched and what follows. -/
def scanNat : List Char → Option (List Char × List Char)
  | [] => none
  | c :: s =>
    if c = '0' then some (['0'], s)
    else if isDec c then some (c :: s.takeWhile isDec, s.dropWhile isDec)
    else none

/-- `(\.\d+)?`. -/
def scanFrac : List Char → List Char × List Char
  | '.' :: s => if (s.takeWhile isDec).isEmpty then ([], '.' :: s) else ('.' :: s.takeWhile isDec, s.dropWhile isDec)
  | s => ([], s)

/-- `[-+]?\d+`, after the `e` of an exponent. -/
def scanSigned : List Char → Option (List Char × List Char)
  | c :: s =>
    if c = '-' ∨ c = '+' then
      if (s.takeWhile isDec).isEmpty then none else some (c :: s.takeWhile isDec, s.dropWhile isDec)
    else if ((c :: s).takeWhile isDec).isEmpty then none
    else some ((c :: s).takeWhile isDec, (c :: s).dropWhile isDec)
  | [] => none

/-- `([eE][-+]?\d+)?`. -/
def scanExp : List Char → List Char × List Char
  | [] => ([], [])
  | c :: s =>
    if c = 'e' ∨ c = 'E' then
      match scanSigned s with
      | none => ([], c :: s)
      | some (t, r) => (c :: t, r)
    else ([], c :: s)

/-- The number written by decimal digits. -/
def decimal (s : List Char) : Nat := Nat.ofDigitChars 10 s 0

/-- `_match_number` of json/scanner.py, after the sign. -/
def scanUnsigned (neg : Bool) (s : List Char) : Option (Data × List Char) :=
  match scanNat s with
  | none => none
  | some (digits, s) =>
    let f := scanFrac s
    let e := scanExp f.2
    if f.1.isEmpty && e.1.isEmpty then
      some (.int (if neg then -(decimal digits : Int) else decimal digits), s)
    else some (.obj "float" (String.ofList ((if neg then ['-'] else []) ++ digits ++ f.1 ++ e.1)), e.2)

/-- `_match_number` of json/scanner.py. -/
def scanNumber : List Char → Option (Data × List Char)
  | '-' :: s => scanUnsigned true s
  | s => scanUnsigned false s

/-- The rest of `s` after the prefix `p`. -/
def dropPrefix : List Char → List Char → Option (List Char)
  | [], s => some s
  | _ :: _, [] => none
  | c :: p, d :: s => if c = d then dropPrefix p s else none

/-- The constants, in the order in which they are tried: `NaN`, `Infinity` and `-Infinity` are floats. -/
def constants : List (List Char × Data) :=
  [("null".toList, .none), ("true".toList, .bool true), ("false".toList, .bool false),
    ("NaN".toList, .obj "float" "nan"), ("Infinity".toList, .obj "float" "inf"),
    ("-Infinity".toList, .obj "float" "-inf")]

/-- The first constant of the list which the text begins with. -/
def scanConstant : List (List Char × Data) → List Char → Option (Data × List Char)
  | [], _ => none
  | (name, value) :: rest, s =>
    match dropPrefix name s with
    | some s => some (value, s)
    | none => scanConstant rest s

/-- The dict of a list of pairs: the last value of a repeated name, at the place of the first. -/
def ofPairs (ps : List (String × Data)) : Dict PyKey Data :=
  Dict.update [] (ps.map (fun p => (PyKey.str p.1, p.2)))

mutual

/-- `scan_once(string, idx)` of json/scanner.py. -/
def scanValue : Nat → List Char → Option (Data × List Char)
  | 0, _ => none
  | _ + 1, [] => none
  | fuel + 1, c :: s =>
    if c = '"' then
      match scanString fuel s with
      | none => none
      | some (t, s) => some (.str (String.ofList t), s)
    else if c = '{' then
      match skipWs s with
      | [] => none
      | d :: r =>
        if d = '}' then some (.dict [], r)
        else
          match scanPairs fuel (d :: r) with
          | none => none
          | some (ps, s) => some (.dict (ofPairs ps), s)
    else if c = '[' then
      match skipWs s with
      | [] => none
      | d :: r =>
        if d = ']' then some (.list [], r)
        else
          match scanItems fuel (d :: r) with
          | none => none
          | some (l, s) => some (.list l, s)
    else
      match scanConstant constants (c :: s) with
      | some r => some r
      | none => scanNumber (c :: s)

/-- The loop of `JSONArray` (json/decoder.py), from the first character of an item. -/
def scanItems : Nat → List Char → Option (List Data × List Char)
  | 0, _ => none
  | fuel + 1, s =>
    match scanValue fuel s with
    | none => none
    | some (x, s) =>
      match skipWs s with
      | [] => none
      | d :: r =>
        if d = ']' then some ([x], r)
        else if d = ',' then
          match scanItems fuel (skipWs r) with
          | none => none
          | some (l, s) => some (x :: l, s)
        else none

/-- The loop of `JSONObject` (json/decoder.py), from the first character of a name. -/
def scanPairs : Nat → List Char → Option (List (String × Data) × List Char)
  | 0, _ => none
  | _ + 1, [] => none
  | fuel + 1, c :: s =>
    if c = '"' then
      match scanString fuel s with
      | none => none
      | some (k, s) =>
        match skipWs s with
        | [] => none
        | d :: s =>
          if d = ':' then
            match scanValue fuel (skipWs s) with
            | none => none
            | some (x, s) =>
              match skipWs s with
              | [] => none
              | d :: r =>
                if d = '}' then some ([(String.ofList k, x)], r)
                else if d = ',' then
                  match scanPairs fuel (skipWs r) with
                  | none => none
                  | some (l, s) => some ((String.ofList k, x) :: l, s)
                else none
          else none
    else none

end

/-- `json.loads(s)`: white space, a value, white space and nothing else.  `JSONDecodeError` is a `ValueError`. -/
def loads (s : String) : Py Data :=
  match scanValue (s.toList.length + 1) (skipWs s.toList) with
  | none => .error .valueError
  | some (x, r) => if (skipWs r).isEmpty then .ok x else .error .valueError

/-! ### Encoding -/

/-- A hexadecimal digit. -/
def hexChar (n : Nat) : Char := if n < 10 then Char.ofNat (48 + n) else Char.ofNat (87 + n)

/-- `'\\u{0:04x}'.format(n)`. -/
def escapeU (n : Nat) : List Char :=
  ['\\', 'u', hexChar (n / 4096 % 16), hexChar (n / 256 % 16), hexChar (n / 16 % 16), hexChar (n % 16)]

/-- `ESCAPE_DCT` of json/encoder.py. -/
def escapes : List (Char × List Char) :=
  [('\\', ['\\', '\\']), ('"', ['\\', '"']), (Char.ofNat 8, ['\\', 'b']), (Char.ofNat 12, ['\\', 'f']),
    ('\n', ['\\', 'n']), ('\r', ['\\', 'r']), ('\t', ['\\', 't'])]

/-- One character of `py_encode_basestring_ascii` (json/encoder.py). -/
def encodeChar (c : Char) : List Char :=
  match Dict.get? escapes c with
  | some s => s
  | none =>
    if 0x20 ≤ c.toNat ∧ c.toNat ≤ 0x7e then [c]
    else if c.toNat < 0x10000 then escapeU c.toNat
    else escapeU (0xd800 + (c.toNat - 0x10000) / 1024 % 1024) ++ escapeU (0xdc00 + (c.toNat - 0x10000) % 1024)

/-- `py_encode_basestring_ascii(s)`. -/
def encodeString (s : String) : List Char := '"' :: s.toList.flatMap encodeChar ++ ['"']

/-- `floatstr(o)`, given `repr(o)` (json/encoder.py). -/
def encodeFloat (r : String) : List Char :=
  if r = "nan" then "NaN".toList
  else if r = "inf" then "Infinity".toList
  else if r = "-inf" then "-Infinity".toList
  else r.toList

/-- The name of a field (json/encoder.py): strings, numbers, booleans and `None` are accepted. -/
def encodeKey : PyKey → Py String
  | .str s => .ok s
  | .int i => .ok (toString i)
  | .bool true => .ok "true"
  | .bool false => .ok "false"
  | .other ty r =>
    if ty = "float" then .ok (String.ofList (encodeFloat r))
    else if ty = "NoneType" then .ok "null"
    else .error (.typeError "keys must be str, int, float, bool or None")

mutual

/-- `json.dumps(o)` with the default options (json/encoder.py).  Simplification: a tuple, or an instance of a
subclass of the types below, is taken to be refused. -/
def encode : Data → Py (List Char)
  | .none => .ok "null".toList
  | .bool true => .ok "true".toList
  | .bool false => .ok "false".toList
  | .int i => .ok (toString i).toList
  | .str s => .ok (encodeString s)
  | .obj ty r =>
    if ty = "float" then .ok (encodeFloat r) else .error (.typeError "not JSON serializable")
  | .list [] => .ok ['[', ']']
  | .list (x :: l) =>
    match encode x with
    | .error e => .error e
    | .ok s =>
      match encodeItems l with
      | .error e => .error e
      | .ok t => .ok ('[' :: s ++ t ++ [']'])
  | .dict [] => .ok ['{', '}']
  | .dict ((k, x) :: d) =>
    match encodeKey k with
    | .error e => .error e
    | .ok k =>
      match encode x with
      | .error e => .error e
      | .ok s =>
        match encodePairs d with
        | .error e => .error e
        | .ok t => .ok ('{' :: encodeString k ++ (':' :: ' ' :: s) ++ t ++ ['}'])

/-- The items of a list after the first. -/
def encodeItems : List Data → Py (List Char)
  | [] => .ok []
  | x :: l =>
    match encode x with
    | .error e => .error e
    | .ok s =>
      match encodeItems l with
      | .error e => .error e
      | .ok t => .ok (',' :: ' ' :: s ++ t)

/-- The fields of a dict after the first. -/
def encodePairs : List (PyKey × Data) → Py (List Char)
  | [] => .ok []
  | (k, x) :: d =>
    match encodeKey k with
    | .error e => .error e
    | .ok k =>
      match encode x with
      | .error e => .error e
      | .ok s =>
        match encodePairs d with
        | .error e => .error e
        | .ok t => .ok (',' :: ' ' :: encodeString k ++ (':' :: ' ' :: s) ++ t)

end

/-- `json.dumps(o)`. -/
def dumps (x : Data) : Py String :=
  match encode x with
  | .error e => .error e
  | .ok s => .ok (String.ofList s)

end Json

/-! ### The targets of the reader -/

/-- What `read_graphology_json` is given: a path, an open text file (with what is left to read), or another value. -/
inductive Target
  | path (p : String)
  | file (text : String)
  | value (x : Data)

/-- `parse_graphology_json(data)` on what `json.load` returns: `"options" not in data` and `data["options"]` raise a
`TypeError` on anything but a dict (pelote/read.py:13-20). -/
def parseLoaded : Data → Py (Graph PyKey Data)
  | .dict d => parseGraphologyJson d
  | _ => .error (.typeError "not a graphology document")

/-- `json.load(f)` then `parse_graphology_json` (pelote/read.py:90-96, 103). -/
def readText (text : String) : Py (Graph PyKey Data) :=
  match Json.loads text with
  | .error e => .error e
  | .ok x => parseLoaded x

/-- `read_graphology_json(target)` (pelote/read.py:74-103); `fs` is `open(path).read()`.  A `str` is a path. -/
def readTarget (fs : String → Py String) : Target → Py (Graph PyKey Data)
  | .path p =>
    match fs p with
    | .error e => .error e
    | .ok text => readText text
  | .file text => readText text
  | .value (.str p) =>
    match fs p with
    | .error e => .error e
    | .ok text => readText text
  | .value x => readGraphologyJson x

end Pelote
