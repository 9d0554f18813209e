import Verif.Spec.Source
import Verif.Model.Json
/-!
Specification of JSON texts, after RFC 8259. From the model it uses only the type `Json.Val` of JSON
values and the type `Json.Node` of values with source ranges.

The grammar is parameterised by a `Dialect`, which says what white space and numbers look like and
whether a comma may precede a closing bracket; `rfc` is the standard, `tombi` is what tombi accepts.
-/
namespace Tombi.Spec.Json
open Tombi.Json (Val Node)

/-- What may vary between the standard and tombi. -/
structure Dialect where
  ws : List Char → Prop
  number : List Char → Prop
  trailingComma : Prop

/-- `'0'..='9'` -/
def Digit (c : Char) : Prop := '0' ≤ c ∧ c ≤ '9'

/-- One or more digits. -/
def Digits (w : List Char) : Prop := w ≠ [] ∧ ∀ c ∈ w, Digit c

/-- RFC 8259 §6 `int`: zero, or digits that do not start with zero. -/
def IntPart (w : List Char) : Prop := Digits w ∧ (w = ['0'] ∨ w.head? ≠ some '0')

/-- RFC 8259 §6 `frac`. -/
def FracPart (w : List Char) : Prop := ∃ ds, w = '.' :: ds ∧ Digits ds

/-- RFC 8259 §6 `exp`. -/
def ExpPart (w : List Char) : Prop :=
  ∃ e sign ds, w = e :: (sign ++ ds) ∧ (e = 'e' ∨ e = 'E')
    ∧ (sign = [] ∨ sign = ['+'] ∨ sign = ['-']) ∧ Digits ds

/-- A sign, digits, and optionally a fraction and an exponent. -/
structure NumberParts (w sign int frac exp : List Char) : Prop where
  eq : w = sign ++ int ++ frac ++ exp
  sign : sign = [] ∨ sign = ['-']
  int : Digits int
  frac : frac = [] ∨ FracPart frac
  exp : exp = [] ∨ ExpPart exp

/-- RFC 8259 §6 `number`. -/
def RfcNumber (w : List Char) : Prop :=
  ∃ sign int frac exp, NumberParts w sign int frac exp ∧ IntPart int

/-- Numbers of tombi: the integer part may have leading zeros if a fraction or an exponent
follows. -/
def TombiNumber (w : List Char) : Prop :=
  ∃ sign int frac exp, NumberParts w sign int frac exp ∧ (IntPart int ∨ frac ≠ [] ∨ exp ≠ [])

/-- RFC 8259 §2 `ws`. -/
def RfcWs (w : List Char) : Prop := ∀ c ∈ w, c = ' ' ∨ c = '\t' ∨ c = '\n' ∨ c = '\r'

/-- White space of tombi: a carriage return must stand before a line feed or (with other carriage
returns) after a line feed that is not itself part of a CRLF. -/
inductive TombiWs : List Char → Prop where
  | nil : TombiWs []
  | space (w : List Char) : TombiWs w → TombiWs (' ' :: w)
  | tab (w : List Char) : TombiWs w → TombiWs ('\t' :: w)
  | crlf (w : List Char) : TombiWs w → TombiWs ('\r' :: '\n' :: w)
  | lf (n : Nat) (w : List Char) : TombiWs w → TombiWs ('\n' :: (List.replicate n '\r' ++ w))

/-- The standard. -/
def rfc : Dialect := ⟨RfcWs, RfcNumber, False⟩

/-- The standard, except that a carriage return must stand before a line feed. -/
def rfcLines : Dialect :=
  ⟨fun w => RfcWs w ∧ ∀ a b, w = a ++ '\r' :: b → ∃ c, b = '\n' :: c, RfcNumber, False⟩

/-- What tombi accepts. -/
def tombi : Dialect := ⟨TombiWs, TombiNumber, True⟩

/-- Value of a hexadecimal digit. -/
def hexDigit (c : Char) : Option Nat :=
  if '0' ≤ c ∧ c ≤ '9' then some (c.toNat - 48)
  else if 'a' ≤ c ∧ c ≤ 'f' then some (c.toNat - 87)
  else if 'A' ≤ c ∧ c ≤ 'F' then some (c.toNat - 55)
  else none

/-- The four digits `ds` write the number `n` in base 16. -/
def Hex4 (ds : List Char) (n : Nat) : Prop :=
  ∃ a b c d na nb nc nd, ds = [a, b, c, d] ∧ hexDigit a = some na ∧ hexDigit b = some nb
    ∧ hexDigit c = some nc ∧ hexDigit d = some nd ∧ n = na * 4096 + nb * 256 + nc * 16 + nd

/-- RFC 8259 §7: the two-character escapes and what they stand for. -/
def escapes : List (Char × Char) :=
  [('"', '"'), ('\\', '\\'), ('/', '/'), ('b', '\x08'), ('f', '\x0C'), ('n', '\n'), ('r', '\r'),
   ('t', '\t')]

/-- RFC 8259 §7: the text between the quotes stands for this text. A `\u` escape must be a
character of the basic multilingual plane or half of a surrogate pair. -/
inductive Decodes : List Char → List Char → Prop where
  | nil : Decodes [] []
  | plain (c : Char) (b t : List Char) : 0x20 ≤ c.toNat → c ≠ '"' → c ≠ '\\' → Decodes b t →
      Decodes (c :: b) (c :: t)
  | escape (e c : Char) (b t : List Char) : (e, c) ∈ escapes → Decodes b t →
      Decodes ('\\' :: e :: b) (c :: t)
  | unicode (ds : List Char) (c : Char) (b t : List Char) : Hex4 ds c.toNat → Decodes b t →
      Decodes ('\\' :: 'u' :: (ds ++ b)) (c :: t)
  | pair (hs ls : List Char) (hi lo : Nat) (c : Char) (b t : List Char) :
      Hex4 hs hi → 0xD800 ≤ hi → hi < 0xDC00 → Hex4 ls lo → 0xDC00 ≤ lo → lo < 0xE000 →
      c.toNat = 0x10000 + (hi - 0xD800) * 0x400 + (lo - 0xDC00) → Decodes b t →
      Decodes ('\\' :: 'u' :: (hs ++ '\\' :: 'u' :: (ls ++ b))) (c :: t)

/-- RFC 8259 §7: what may stand between the quotes, whatever it means: no control characters, no
bare quotes, only the escapes of the standard. -/
inductive StringBody : List Char → Prop where
  | nil : StringBody []
  | plain (c : Char) (b : List Char) : 0x20 ≤ c.toNat → c ≠ '"' → c ≠ '\\' → StringBody b →
      StringBody (c :: b)
  | escape (e c : Char) (b : List Char) : (e, c) ∈ escapes → StringBody b →
      StringBody ('\\' :: e :: b)
  | unicode (ds : List Char) (n : Nat) (b : List Char) : Hex4 ds n → StringBody b →
      StringBody ('\\' :: 'u' :: (ds ++ b))

mutual
/-- RFC 8259 §3: `Value D v t`: the text `t` (without surrounding white space) is a JSON text of
the value `v`. -/
inductive Value (D : Dialect) : Val → List Char → Prop where
  | null : Value D .null ['n', 'u', 'l', 'l']
  | true : Value D (.bool true) ['t', 'r', 'u', 'e']
  | false : Value D (.bool false) ['f', 'a', 'l', 's', 'e']
  | num (w : List Char) : D.number w → Value D (.num w) w
  | str (b s : List Char) : Decodes b s → Value D (.str s) ('"' :: (b ++ ['"']))
  | arrEmpty (w : List Char) : D.ws w → Value D (.arr []) ('[' :: (w ++ [']']))
  | arr (xs : List Val) (t : List Char) : Items D xs t → Value D (.arr xs) ('[' :: (t ++ [']']))
  | objEmpty (w : List Char) : D.ws w → Value D (.obj []) ('{' :: (w ++ ['}']))
  | obj (ms : List (List Char × Val)) (t : List Char) : Members D ms t →
      Value D (.obj ms) ('{' :: (t ++ ['}']))
/-- RFC 8259 §5: the elements of an array, with the white space around them. -/
inductive Items (D : Dialect) : List Val → List Char → Prop where
  | one (a t b : List Char) (x : Val) : D.ws a → Value D x t → D.ws b →
      Items D [x] (a ++ (t ++ b))
  | trailing (a t b c : List Char) (x : Val) : D.trailingComma → D.ws a → Value D x t → D.ws b →
      D.ws c → Items D [x] (a ++ (t ++ (b ++ ',' :: c)))
  | cons (a t b r : List Char) (x : Val) (xs : List Val) : D.ws a → Value D x t → D.ws b →
      Items D xs r → Items D (x :: xs) (a ++ (t ++ (b ++ ',' :: r)))
/-- RFC 8259 §4: the members of an object, with the white space around them. -/
inductive Members (D : Dialect) : List (List Char × Val) → List Char → Prop where
  | one (a m b : List Char) (k : List Char) (x : Val) : D.ws a → Member D k x m → D.ws b →
      Members D [(k, x)] (a ++ (m ++ b))
  | trailing (a m b c : List Char) (k : List Char) (x : Val) : D.trailingComma → D.ws a →
      Member D k x m → D.ws b → D.ws c → Members D [(k, x)] (a ++ (m ++ (b ++ ',' :: c)))
  | cons (a m b r : List Char) (k : List Char) (x : Val) (ms : List (List Char × Val)) : D.ws a →
      Member D k x m → D.ws b → Members D ms r →
      Members D ((k, x) :: ms) (a ++ (m ++ (b ++ ',' :: r)))
/-- RFC 8259 §4: a key, a colon and a value. -/
inductive Member (D : Dialect) : List Char → Val → List Char → Prop where
  | mk (k : List Char) (b w1 w2 t : List Char) (x : Val) : Decodes b k → D.ws w1 → D.ws w2 →
      Value D x t → Member D k x ('"' :: (b ++ '"' :: (w1 ++ ':' :: (w2 ++ t))))
end

/-- RFC 8259 §2: a JSON text. -/
def Document (D : Dialect) (v : Val) (src : List Char) : Prop :=
  ∃ a t b, src = a ++ (t ++ b) ∧ D.ws a ∧ Value D v t ∧ D.ws b

mutual
/-- How deeply arrays and objects are nested. -/
def nesting : Val → Nat
  | .arr xs => nestings xs + 1
  | .obj ms => nestingMembers ms + 1
  | _ => 0
def nestings : List Val → Nat
  | [] => 0
  | x :: xs => max (nesting x) (nestings xs)
def nestingMembers : List (List Char × Val) → Nat
  | [] => 0
  | (_, x) :: ms => max (nesting x) (nestingMembers ms)
end

mutual
/-- No object, at any depth, has the same key twice. -/
def KeysDistinct : Val → Prop
  | .arr xs => KeysDistinctAll xs
  | .obj ms => (ms.map (·.1)).Nodup ∧ KeysDistinctMembers ms
  | _ => True
def KeysDistinctAll : List Val → Prop
  | [] => True
  | x :: xs => KeysDistinct x ∧ KeysDistinctAll xs
def KeysDistinctMembers : List (List Char × Val) → Prop
  | [] => True
  | (_, x) :: ms => KeysDistinct x ∧ KeysDistinctMembers ms
end

mutual
/-- `P` holds for the node and everything in it. -/
def Everywhere (P : Node → Prop) : Node → Prop
  | .arr xs r => P (.arr xs r) ∧ EverywhereItems P xs
  | .obj ms r => P (.obj ms r) ∧ EverywhereMembers P ms
  | .null r => P (.null r)
  | .bool b r => P (.bool b r)
  | .num t r => P (.num t r)
  | .str s r => P (.str s r)
def EverywhereItems (P : Node → Prop) : List Node → Prop
  | [] => True
  | x :: xs => Everywhere P x ∧ EverywhereItems P xs
def EverywhereMembers (P : Node → Prop) : List (List Char × Node) → Prop
  | [] => True
  | (_, x) :: ms => Everywhere P x ∧ EverywhereMembers P ms
end

/-- The text of `src` in the range of the node is a JSON text of its value. -/
def InPlace (src : List Char) (node : Node) : Prop :=
  ∃ pre t post, src = pre ++ (t ++ post) ∧ Value tombi node.toVal t
    ∧ node.range = ⟨posOf pre, posOf (pre ++ t)⟩

mutual
/-- The numbers in a value are numbers of RFC 8259. -/
def RfcNumbers : Val → Prop
  | .num w => RfcNumber w
  | .arr xs => RfcNumbersAll xs
  | .obj ms => RfcNumbersMembers ms
  | _ => True
def RfcNumbersAll : List Val → Prop
  | [] => True
  | x :: xs => RfcNumbers x ∧ RfcNumbersAll xs
def RfcNumbersMembers : List (List Char × Val) → Prop
  | [] => True
  | (_, x) :: ms => RfcNumbers x ∧ RfcNumbersMembers ms
end

/-- The lower-case hexadecimal digit of `n < 16`. -/
def hexChar (n : Nat) : Char := if n < 10 then Char.ofNat (48 + n) else Char.ofNat (87 + n)

/-- How a JSON printer writes a character of a text. -/
def renderChar (c : Char) : List Char :=
  if c = '"' then ['\\', '"']
  else if c = '\\' then ['\\', '\\']
  else if c.toNat < 0x20 then
    ['\\', 'u', '0', '0', hexChar (c.toNat / 16), hexChar (c.toNat % 16)]
  else [c]

/-- How a JSON printer writes a text. -/
def renderString (s : List Char) : List Char := '"' :: (s.flatMap renderChar ++ ['"'])

mutual
/-- The shortest JSON text of a value. -/
def render : Val → List Char
  | .null => ['n', 'u', 'l', 'l']
  | .bool true => ['t', 'r', 'u', 'e']
  | .bool false => ['f', 'a', 'l', 's', 'e']
  | .num w => w
  | .str s => renderString s
  | .arr xs => '[' :: (renderItems xs ++ [']'])
  | .obj ms => '{' :: (renderMembers ms ++ ['}'])
def renderItems : List Val → List Char
  | [] => []
  | [x] => render x
  | x :: y :: xs => render x ++ ',' :: renderItems (y :: xs)
def renderMembers : List (List Char × Val) → List Char
  | [] => []
  | [(k, x)] => renderString k ++ ':' :: render x
  | (k, x) :: y :: ms => (renderString k ++ ':' :: render x) ++ ',' :: renderMembers (y :: ms)
end

/-- The number written by decimal digits. -/
def decimal : List Char → Nat
  | [] => 0
  | d :: ds => (d.toNat - '0'.toNat) * 10 ^ ds.length + decimal ds

/-- Token `t` covers the text `mid`, between `pre` and `post`. -/
structure Covers (t : Tombi.Json.Token) (pre mid post src : List Char) : Prop where
  src : src = pre ++ mid ++ post
  start : t.span.start = utf8Len pre
  stop : t.span.stop = utf8Len (pre ++ mid)

end Tombi.Spec.Json
