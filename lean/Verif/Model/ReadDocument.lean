import Verif.Model.AstDoc
import Verif.Model.DocumentTree
import Verif.Model.Literals
import Verif.Model.DateTime
/-!
Model of reading a document: `rust/serde_tombi/src/de.rs:90-103` and `:181-197` (from a text to a document tree, or errors),
with the parts of `crates/tombi-document-tree/src` that `Verif/Model/DocumentTree.lean` takes as given: the values of keys
and literals, and the check of comments.

Simplifications: the version is given (`get_toml_version` is left out); errors are not ordered by their place; a panic
while a literal is read counts as an error of the literal; the last step, from the tree to `tombi_document::Document`,
forgets ranges and comments and keeps keys and values, and is left out.
-/
namespace Tombi.Reading
open SyntaxKind TomlText Literals DateTime
open Tombi.Formatter (Node Body Section Doc Comma docOf)
open Tombi.Format (AstKey)

abbrev Text := List Char

/-- `value.rs:27-39` (`Value`), the values of literals. A float is the text that is handed to `f64::from_str`. -/
inductive Scalar where
  | boolean (b : Bool)
  | integer (n : Int)
  | float (text : Text)
  | string (s : Text)
  | offsetDateTime (d : Date) (t : Time) (o : Offset)
  | localDateTime (d : Date) (t : Time)
  | localDate (d : Date)
  | localTime (t : Time)
  deriving DecidableEq, Repr

/-- `Result::ok`, with a panic (`none`) as an error. -/
def okOf {ε α : Type} : Option (Except ε α) → Option α
  | some (.ok a) => some a
  | _ => none

/-- `boolean.rs:72-76`. -/
def booleanOf (t : Text) : Option Scalar :=
  if t = ['t', 'r', 'u', 'e'] then some (.boolean true)
  else if t = ['f', 'a', 'l', 's', 'e'] then some (.boolean false)
  else none

/-- `string.rs:44-72`, `integer.rs:71-225`, `float.rs:56-92`, `boolean.rs:56-87`, `offset_date_time.rs`,
`local_date_time.rs`, `local_date.rs`, `local_time.rs`: the value of a literal. -/
def scalarOf (v : TomlVersion) (kind : SyntaxKind) (t : Text) : Option Scalar :=
  match kind with
  | BASIC_STRING => (okOf (tryFromBasicString t v)).map .string
  | LITERAL_STRING => (okOf (tryFromLiteralString t)).map .string
  | MULTI_LINE_BASIC_STRING => (okOf (tryFromMultiLineBasicString t v)).map .string
  | MULTI_LINE_LITERAL_STRING => (okOf (tryFromMultiLineLiteralString t)).map .string
  | INTEGER_BIN => (tryFromBinary t).join.map .integer
  | INTEGER_OCT => (tryFromOctal t).join.map .integer
  | INTEGER_DEC => (tryFromDecimal t).map .integer
  | INTEGER_HEX => (tryFromHexadecimal t).join.map .integer
  | FLOAT => (tryFromFloat t).toOption.map .float
  | BOOLEAN => booleanOf t
  | OFFSET_DATE_TIME => (tryNewOffsetDateTime v t).toOption.map fun x => .offsetDateTime x.1 x.2.1 x.2.2
  | LOCAL_DATE_TIME => (tryNewLocalDateTime v t).toOption.map fun x => .localDateTime x.1 x.2
  | LOCAL_DATE => (tryNewLocalDate v t).toOption.map .localDate
  | LOCAL_TIME => (tryNewLocalTime v t).toOption.map .localTime
  | _ => none

/-- `tombi-ast/src/impls/key.rs:27-40` (`try_to_raw_text`). -/
def rawKey (v : TomlVersion) : AstKey → Option DKey
  | .bare t => (tryFromBareKey t).toOption
  | .basic t => okOf (tryFromBasicString t v)
  | .literal t => okOf (tryFromLiteralString t)

/-- The text of the token of a key. -/
def keyToken : AstKey → Text
  | .bare t => t
  | .basic t => t
  | .literal t => t

/-- `key.rs:104-144`: a key that cannot be decoded stands for its text. -/
def keyOr (v : TomlVersion) (k : AstKey) : DKey := (rawKey v k).getD (keyToken k)

mutual
/-- `value.rs:227-291`: a value. (`AstDoc.nodeOf` gives no pair where a value is expected, but in arrays.) -/
def valueOf (v : TomlVersion) : Node → AstValue Scalar
  | .lit _ k t _ => match scalarOf v k t with
    | some s => .scalar s
    | none => .bad
  | .array _ _ b _ => .array (itemsOf v b)
  | .table _ _ b _ => .inlineTable (keyValuesOf v b)
  | .pair _ _ _ _ => .bad
/-- `array.rs:330-352`: the elements of an array. -/
def itemsOf (v : TomlVersion) : Body → List (AstItem Scalar)
  | .nil => []
  | .dangling _ _ b => itemsOf v b
  | .item _ (.pair _ ks _ n) _ b => .keyValue (.mk (some (ks.map (keyOr v))) (some (valueOf v n))) :: itemsOf v b
  | .item _ n _ b => .value (valueOf v n) :: itemsOf v b
/-- The key-values of a table (`table.rs:966-1021`, `:570-583`, `root.rs:64-80`). -/
def keyValuesOf (v : TomlVersion) : Body → List (AstKeyValue Scalar)
  | .nil => []
  | .dangling _ _ b => keyValuesOf v b
  | .item _ (.pair _ ks _ n) _ b => .mk (some (ks.map (keyOr v))) (some (valueOf v n)) :: keyValuesOf v b
  | .item _ _ _ b => keyValuesOf v b
end

/-- `tombi_ast::Root` with the values of keys and literals. -/
def astRoot (v : TomlVersion) (d : Doc) : AstRoot Scalar :=
  ⟨keyValuesOf v d.body,
   d.sections.map fun s => ⟨s.isArray, some (s.header.map (keyOr v)), keyValuesOf v s.body⟩⟩

mutual
/-- The keys in a value. -/
def nodeKeys : Node → List AstKey
  | .lit _ _ _ _ => []
  | .array _ _ b _ => itemKeys b
  | .table _ _ b _ => pairKeys b
  | .pair _ _ _ _ => []
/-- The keys in the elements of an array. -/
def itemKeys : Body → List AstKey
  | .nil => []
  | .dangling _ _ b => itemKeys b
  | .item _ (.pair _ ks _ n) _ b => ks ++ nodeKeys n ++ itemKeys b
  | .item _ n _ b => nodeKeys n ++ itemKeys b
/-- The keys in the key-values of a table. -/
def pairKeys : Body → List AstKey
  | .nil => []
  | .dangling _ _ b => pairKeys b
  | .item _ (.pair _ ks _ n) _ b => ks ++ nodeKeys n ++ pairKeys b
  | .item _ _ _ b => pairKeys b
end

/-- The keys of a document. -/
def docKeys (d : Doc) : List AstKey := pairKeys d.body ++ d.sections.flatMap fun s => s.header ++ pairKeys s.body

/-- `support/comment.rs:48-84` of `tombi-ast` (`dangling_comment_groups`): the dangling comments before the first item. -/
def headComments : Body → List Text
  | .dangling _ cs b => cs ++ headComments b
  | _ => []

/-- The comments of a comma (`array.rs:365-381`, `table.rs:983-1002`). -/
def commaComments : Option Comma → List Text
  | none => []
  | some c => c.leading ++ c.trailing.toList

mutual
/-- The comments of a value or a key-value that are checked: `value.rs:293-326`, `array.rs:284-320`, `table.rs:914-951`,
`:788-792`. -/
def nodeComments : Node → List Text
  | .lit l _ _ tr => l ++ tr.toList
  | .array l s b tr => l ++ s.toList ++ headComments b ++ tr.toList ++ bodyComments b
  | .table l s b tr => l ++ s.toList ++ headComments b ++ tr.toList ++ bodyComments b
  | .pair l _ _ n => l ++ nodeComments n
/-- The comments of the items of an array or a table that are checked. Dangling comments between them are not. -/
def bodyComments : Body → List Text
  | .nil => []
  | .dangling _ _ b => bodyComments b
  | .item _ n c b => nodeComments n ++ commaComments c ++ bodyComments b
end

/-- The comments of a document that are checked: `root.rs:47-56`, `table.rs:511-543`, `:639-670`. -/
def docComments (d : Doc) : List Text :=
  headComments d.body ++ bodyComments d.body ++
    d.sections.flatMap fun s => s.leading ++ s.trailing.toList ++ headComments s.body ++ bodyComments s.body

/-- `support/comment.rs:9-12` (`try_from_comment`): is a comment valid? -/
def commentOk (t : Text) : Bool := (okOf ((byteDrop 1 t).map fun s => parseLiteralString s false)).isSome

/-- The errors of the conversion: of the tree, of keys, of comments. -/
inductive ReadError where
  | tree (e : DError)
  | key (k : AstKey)
  | comment (t : Text)
  deriving DecidableEq, Repr

/-- `into_document_tree_and_errors` of the root (`root.rs:36-117`): the tree and the errors. -/
def convert (v : TomlVersion) (d : Doc) : DTable Scalar × List ReadError :=
  let r := (astRoot v d).tree
  (r.1, r.2.map .tree ++ ((docKeys d).filter fun k => (rawKey v k).isNone).map .key ++
    ((docComments d).filter fun t => !commentOk t).map .comment)

/-- Why a text is not read. -/
inductive Failure where
  | abort
  | syntax
  | errors (es : List ReadError)

/-- `rust/serde_tombi/src/de.rs:90-103` (`from_str_async`) with `:181-197` (`try_to_document`). -/
def readDocument (G : Segmenter) (v : TomlVersion) (source : Text) : Except Failure (DTable Scalar) :=
  match parse G source with
  | .error _ => .error .abort
  | .ok p =>
    if !p.errors.isEmpty then .error .syntax
    else
      let r := convert v (docOf p.tree)
      if r.2.isEmpty then .ok r.1 else .error (.errors r.2)

end Tombi.Reading
