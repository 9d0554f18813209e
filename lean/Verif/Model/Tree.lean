import Verif.Model.Parser
/-!
Model of what turns parser events into a syntax tree: `crates/tombi-parser/src/{event,output,builder,
lib}.rs`, `crates/tombi-syntax/src/builder.rs`, `crates/tombi-rg-tree/src/green/builder.rs`.

Simplification: the node cache (`green/node_cache.rs`) is not part of this file; green nodes and
tokens are values, and the cache is taken to return a node equal to the one it was asked for.
-/
namespace Tombi

/-- All kinds in the order of their discriminants (`crates/tombi-syntax/src/generated/
syntax_kind.rs:7-56`). -/
def SyntaxKind.all : List SyntaxKind :=
  [.TOMBSTONE, .EOF, .COMMA, .DOT, .EQUAL, .BRACKET_START, .BRACKET_END, .BRACE_START, .BRACE_END,
   .DOUBLE_BRACKET_START, .DOUBLE_BRACKET_END, .BASIC_STRING, .MULTI_LINE_BASIC_STRING,
   .LITERAL_STRING, .MULTI_LINE_LITERAL_STRING, .INTEGER_DEC, .INTEGER_HEX, .INTEGER_OCT,
   .INTEGER_BIN, .FLOAT, .BOOLEAN, .OFFSET_DATE_TIME, .LOCAL_DATE_TIME, .LOCAL_DATE, .LOCAL_TIME,
   .WHITESPACE, .LINE_BREAK, .COMMENT, .ERROR, .ROOT, .KEYS, .KEY, .VALUE, .KEY_VALUE, .BARE_KEY,
   .ARRAY, .TABLE, .INLINE_TABLE, .ARRAY_OF_TABLE, .DANGLING_COMMENT_GROUP, .KEY_VALUE_GROUP,
   .KEY_VALUE_WITH_COMMA_GROUP, .VALUE_WITH_COMMA_GROUP, .INVALID_TOKEN, .LAST]

/-- `syntax_kind.rs:70-76` (`From<u16>`): a transmute, guarded by a `debug_assert!`; `none` is the
failing assertion. -/
def SyntaxKind.ofNat? (n : Nat) : Option SyntaxKind := SyntaxKind.all[n]?

/-! ### output.rs -/

/-- `output.rs:14-23` (`Output`). -/
structure Output where
  events : List (BitVec 32)
  errors : List PError
  deriving DecidableEq, Repr

/-- `output.rs:25-38` (`Step`). -/
inductive Step where
  | token (kind : SyntaxKind) (n : Nat)
  | enter (kind : SyntaxKind)
  | exit
  | error (e : PError)
  deriving DecidableEq, Repr

namespace Output

/-- `output.rs:41-44`. -/
def EVENT_MASK : BitVec 32 := 0b1#32
def TAG_MASK : BitVec 32 := 0x000000F0#32
def N_INPUT_TOKEN_MASK : BitVec 32 := 0x0000FF00#32
def KIND_MASK : BitVec 32 := 0xFFFF0000#32

/-- `output.rs:46-49`: `trailing_ones` / `trailing_zeros` of the masks. -/
def ERROR_SHIFT : Nat := 1
def TAG_SHIFT : Nat := 4
def N_INPUT_TOKEN_SHIFT : Nat := 8
def KIND_SHIFT : Nat := 16

/-- `output.rs:51-53`. -/
def TOKEN_EVENT : Nat := 0
def ENTER_EVENT : Nat := 1
def EXIT_EVENT : Nat := 2

/-- `output.rs:14` (`Default`). -/
def empty : Output := ⟨[], []⟩

/-- `output.rs:85-90` (`token`); `n_tokens` is a `u8`. -/
def token (o : Output) (kind : SyntaxKind) (n : BitVec 8) : Output :=
  { o with events := o.events ++
      [(BitVec.ofNat 32 kind.toNat <<< KIND_SHIFT)
        ||| (n.setWidth 32 <<< N_INPUT_TOKEN_SHIFT) ||| EVENT_MASK] }

/-- `output.rs:92-97` (`enter_node`). -/
def enterNode (o : Output) (kind : SyntaxKind) : Output :=
  { o with events := o.events ++
      [(BitVec.ofNat 32 kind.toNat <<< KIND_SHIFT)
        ||| (BitVec.ofNat 32 ENTER_EVENT <<< TAG_SHIFT) ||| EVENT_MASK] }

/-- `output.rs:99-102` (`leave_node`). -/
def leaveNode (o : Output) : Output :=
  { o with events := o.events ++ [(BitVec.ofNat 32 EXIT_EVENT <<< TAG_SHIFT) ||| EVENT_MASK] }

/-- `output.rs:104-109` (`error`). -/
def error (o : Output) (e : PError) : Output :=
  { events := o.events ++ [BitVec.ofNat 32 o.errors.length <<< ERROR_SHIFT]
    errors := o.errors ++ [e] }

/-- `output.rs:56-82`: decodes one event. -/
def decode (errors : List PError) (e : BitVec 32) : Except Abort Step :=
  if e &&& EVENT_MASK = 0#32 then
    match errors[(e >>> ERROR_SHIFT).toNat]? with
    | some err => .ok (.error err)
    | none => .error .panic
  else
    let tag := ((e &&& TAG_MASK) >>> TAG_SHIFT).toNat
    let kind := SyntaxKind.ofNat? ((e &&& KIND_MASK) >>> KIND_SHIFT).toNat
    if tag = TOKEN_EVENT then
      match kind with
      | some k => .ok (.token k ((e &&& N_INPUT_TOKEN_MASK) >>> N_INPUT_TOKEN_SHIFT).toNat)
      | none => .error .panic
    else if tag = ENTER_EVENT then
      match kind with
      | some k => .ok (.enter k)
      | none => .error .panic
    else if tag = EXIT_EVENT then .ok .exit
    else .error .panic

/-- `output.rs:55-83` (`iter`), collected. -/
def steps (o : Output) : Except Abort (List Step) := o.events.mapM (decode o.errors)

end Output

/-! ### event.rs -/

/-- `event.rs:43-83`: one round of the loop in `process`, without forward parents. -/
def processEvent (o : Output) : Event → Output
  | .start kind => if kind ≠ .TOMBSTONE then o.enterNode kind else o
  | .finish => o.leaveNode
  | .token kind n => o.token kind (BitVec.ofNat 8 n)
  | .error e => o.error e

/-- `event.rs:38-87` (`process`). -/
def process (events : List Event) : Output := events.foldl processEvent Output.empty

/-! ### Green trees -/

/-- `crates/tombi-rg-tree/src/green/{node,token,element}.rs`: a green element, i.e. a token with its
text or a node with its children. -/
inductive Green where
  | token (kind : SyntaxKind) (text : List Char)
  | node (kind : SyntaxKind) (children : List Green)
  deriving Repr

/-- `crates/tombi-rg-tree/src/green/builder.rs:25-29` (`GreenNodeBuilder`) and
`crates/tombi-syntax/src/builder.rs:5-9` (`SyntaxTreeBuilder`). -/
structure TreeBuilder where
  parents : List (SyntaxKind × Nat)
  children : List Green
  errors : List PError
  deriving Repr

namespace TreeBuilder

/-- `green/builder.rs:33-35`, `tombi-syntax/src/builder.rs:36-43`. -/
def new : TreeBuilder := ⟨[], [], []⟩

/-- `green/builder.rs:49-52`. -/
def token (b : TreeBuilder) (kind : SyntaxKind) (text : List Char) : TreeBuilder :=
  { b with children := b.children ++ [.token kind text] }

/-- `green/builder.rs:56-59`; the stack's top is the head of `parents`. -/
def startNode (b : TreeBuilder) (kind : SyntaxKind) : TreeBuilder :=
  { b with parents := (kind, b.children.length) :: b.parents }

/-- `green/builder.rs:64-68` with `green/node_cache.rs:70-131`: pops the open node and moves the
children from its first child on into it. -/
def finishNode (b : TreeBuilder) : Except Abort TreeBuilder :=
  match b.parents with
  | [] => .error .panic
  | (kind, first) :: parents =>
    if first ≤ b.children.length then
      .ok { b with parents, children := b.children.take first ++ [.node kind (b.children.drop first)] }
    else .error .panic

/-- `tombi-syntax/src/builder.rs:31-33`. -/
def error (b : TreeBuilder) (e : PError) : TreeBuilder := { b with errors := b.errors ++ [e] }

/-- `green/builder.rs:126-132` and `tombi-syntax/src/builder.rs:12-15`. -/
def finish (b : TreeBuilder) : Except Abort (Green × List PError) :=
  match b.children with
  | [.node kind children] => .ok (.node kind children, b.errors)
  | _ => .error .panic

end TreeBuilder

/-! ### builder.rs -/

/-- `builder.rs:23-27` (`State`). -/
inductive BState where
  | pendingEnter | normal | pendingExit
  deriving DecidableEq, Repr

/-- `builder.rs:5-11` (`Builder`), with the sink being the tree builder of `lib.rs:49-60`. -/
structure Builder where
  source : List Char
  index : Nat
  tokens : List Token
  state : BState
  tree : TreeBuilder
  deriving Repr

namespace Builder

/-- `builder.rs:30-42` (`Builder::new`). -/
def new (source : List Char) (tokens : List Token) : Builder :=
  ⟨source, 0, tokens, .pendingEnter, TreeBuilder.new⟩

/-- `builder.rs:88-97` (`do_token`). -/
def doToken (b : Builder) (kind : SyntaxKind) (n : Nat) : Except Abort Builder :=
  match b.tokens[b.index]?, b.tokens[b.index + n]? with
  | some t, some t' =>
    match byteSlice t.span.start t'.span.start b.source with
    | some text => .ok { b with index := b.index + n, tree := b.tree.token kind text }
    | none => .error .panic
  | _, _ => .error .panic

/-- `builder.rs:79-85`: the loop of `eat_trivias`, with fuel. -/
def eatTriviasLoop : Nat → Builder → Except Abort Builder
  | 0, _ => .error .outOfFuel
  | fuel + 1, b =>
    match b.tokens[b.index]? with
    | none => .ok b
    | some t =>
      if t.kind.isTrivia then do eatTriviasLoop fuel (← b.doToken t.kind 1) else .ok b

/-- `builder.rs:78-86` (`eat_trivias`). -/
def eatTrivias (b : Builder) : Except Abort Builder := eatTriviasLoop (b.tokens.length + 1) b

/-- `Step::FinishNode` sent to the sink (`lib.rs:58`). -/
def sinkFinish (b : Builder) : Except Abort Builder := do return { b with tree := (← b.tree.finishNode) }

/-- The `match` at the head of `token`, `enter` and `exit` when a node is already entered
(`builder.rs:45-49`, `:62-63`, `:71-75`). -/
def flush (b : Builder) (next : BState) : Except Abort Builder :=
  match b.state with
  | .pendingEnter => .error .panic
  | .pendingExit => ({ b with state := next } : Builder).sinkFinish
  | .normal => .ok { b with state := next }

/-- `builder.rs:44-52` (`token`). -/
def token (b : Builder) (kind : SyntaxKind) (n : Nat) : Except Abort Builder := do
  let b ← b.flush .normal
  let b ← b.eatTrivias
  b.doToken kind n

/-- `builder.rs:54-68` (`enter`). -/
def enter (b : Builder) (kind : SyntaxKind) : Except Abort Builder :=
  match b.state with
  | .pendingEnter => .ok { b with state := .normal, tree := b.tree.startNode kind }
  | _ => do
    let b ← b.flush .normal
    let b ← b.eatTrivias
    return { b with tree := b.tree.startNode kind }

/-- `builder.rs:70-76` (`exit`). -/
def exit (b : Builder) : Except Abort Builder := b.flush .pendingExit

/-- `builder.rs:117-127`: one step of the loop in `intersperse_trivia`. -/
def step (b : Builder) : Step → Except Abort Builder
  | .token kind n => b.token kind n
  | .enter kind => b.enter kind
  | .exit => b.exit
  | .error e => .ok { b with tree := b.tree.error e }

/-- `builder.rs:130-136`: the end of `intersperse_trivia`. -/
def finish (b : Builder) : Except Abort Builder :=
  match b.state with
  | .pendingExit => do
    let b ← ({ b with state := .normal } : Builder).eatTrivias
    b.sinkFinish
  | _ => .error .panic

end Builder

/-- `builder.rs:108-137` (`intersperse_trivia`) and `lib.rs:44-63` (`build_green_tree`). -/
def buildGreenTree (source : List Char) (tokens : List Token) (output : Output) :
    Except Abort (Green × List PError) := do
  let steps ← output.steps
  let b ← steps.foldlM Builder.step (Builder.new source tokens)
  let b ← b.finish
  b.tree.finish

/-! ### lib.rs -/

/-- `crates/tombi-parser/src/error.rs:143-169` (`From<tombi_lexer::Error>`). -/
def PError.ofLex (e : LexError) : PError := ⟨.lex e.kind, e.range⟩

/-- `parsed.rs:6-12` (`Parsed`). -/
structure Parsed where
  tree : Green
  errors : List PError
  lineEnding : LineEnding
  deriving Repr

/-- `lib.rs:20-42` (`parse`, `parse_as::<Root>`). -/
def parse (G : Segmenter) (source : List Char) : Except Abort Parsed := do
  let lexed ← lex G source
  let (_, p) ← (PM.root G).run (Parser.new source lexed.tokens)
  let (tokens, events) := p.finish
  let output := process events
  let (tree, errs) ← buildGreenTree source tokens output
  return ⟨tree, lexed.errors.map PError.ofLex ++ errs, lexed.lineEnding⟩

end Tombi
