import Verif.Parse.Base
/-!
# The parser, part 2: looking ahead

Functions that only look at the remaining tokens. They run between `lexer_peek_enter` and
`lexer_peek_leave` and are modelled as functions of the list of remaining tokens.
-/
namespace Knfmt.Parse
open Knfmt.Lexer (TT)

/-- `token_cmp(a, b) == 0`, token.c:189-198. -/
def sameLine (a b : Tok) : Bool := decide (a.lno = b.lno)
/-- `token_cmp(a, b) < 0`, token.c:189-198. -/
def lineBefore (a b : Tok) : Bool := decide (a.lno < b.lno)

/-- `lexer_if` while peeking, lexer.c:623-640: what remains after the token. -/
def pIf (p : TT → Bool) : List Tok → Option (List Tok)
  | [] => none
  | t :: ts => if p t.ty then some ts else none

/-- The same, the rest stays as it is if the token is another one. -/
def pOpt (p : TT → Bool) (ts : List Tok) : List Tok := (pIf p ts).getD ts

/-- `while (lexer_if(lx, ...)) continue`. -/
def pWhile (p : TT → Bool) : List Tok → List Tok
  | [] => []
  | t :: ts => if p t.ty then pWhile p ts else t :: ts

/-- Is the next token of the given type? -/
def pAt (ty : TT) (ts : List Tok) : Bool := decide ((ts.head?.getD eofTok).ty = ty)

/-- The loop of `lexer_peek_if_pair`, lexer.c:689-701: the closing token and what follows it. -/
def pairGo (l r : TT) : Nat → List Tok → Option (Tok × List Tok)
  | _, [] => none
  | d, t :: ts =>
    let d1 := if t.ty = l then d + 1 else d
    let d2 := if t.ty = r then d1 - 1 else d1
    if d2 = 0 then some (t, ts) else pairGo l r d2 ts

/-- `lexer_peek_if_pair` and `lexer_if_pair`, lexer.c:678-727. -/
def pair (l r : TT) (ts : List Tok) : Option (Tok × List Tok) :=
  if pAt l ts then pairGo l r 0 ts else none

/-- Parentheses. -/
def parens : List Tok → Option (Tok × List Tok) := pair .lparen .rparen

/-- `lexer_peek_until`, lexer.c:759-769 and 819-833. -/
def until_ (ty : TT) : List Tok → Option Tok
  | [] => none
  | t :: ts => if t.ty = ty then some t else until_ ty ts

/-- `lexer_peek_until_comma`, lexer.c:779-813. The nesting can become negative. -/
def untilComma (stop : Option Nat) : Int → List Tok → Option Tok
  | _, [] => none
  | n, t :: ts =>
    if some t.id = stop then none else
    let n' := if t.ty = .lparen ∨ t.ty = .lbrace then n + 1
      else if t.ty = .rparen ∨ t.ty = .rbrace then n - 1 else n
    if t.ty = .comma ∧ n' = 0 then some t else untilComma stop n' ts

/-! ## parser-attributes.c -/

/-- The loop of `parser_attributes_peek`, parser-attributes.c:22-41. -/
def attrGo (func : Bool) : Nat → Option (Tok × List Tok) → List Tok → Option (Tok × List Tok)
  | 0, last, _ => last
  | n + 1, last, ts =>
    let ts1 := pOpt (is .attribute) ts
    let viaFunc : Option (Tok × List Tok) :=
      if func then
        match pIf (is .ident) ts1 with
        | none => last
        | some a =>
          match parens a with
          | none => last
          | some (rp, b) =>
            match pIf (is .ident) b with
            | none => last
            | some c =>
              match pIf (is .lparen) c with
              | none => last
              | some e => attrGo func n (some (rp, b)) e
      else last
    if pAt .attribute ts then
      match parens ts1 with
      | some (rp, b) => attrGo func n (some (rp, b)) b
      | none => viaFunc
    else viaFunc

/-- `parser_attributes_peek`, parser-attributes.c:13-43: the last parenthesis and what follows. -/
def attrPeek (func : Bool) (ts : List Tok) : Option (Tok × List Tok) :=
  attrGo func (ts.length + 1) none ts

/-- `!parser_attributes_peek(...) || lexer_seek_after(lx, attr)`. -/
def attrSkip (func : Bool) (ts : List Tok) : List Tok :=
  match attrPeek func ts with
  | none => ts
  | some (_, r) => r

/-! ## parser-cpp.c -/

/-- `is_list_entry`, parser-cpp.c:22-26. -/
def isListEntry (t : Tok) : Bool := decide (t.str = "LIST_ENTRY".toList)

/-- `parser_cpp_peek_type`, parser-cpp.c:28-66: the right parenthesis and what follows. -/
def cppPeekType (ts : List Tok) : Option (Tok × List Tok) :=
  match ts with
  | i :: a :: b :: c :: rest =>
    if i.ty = .ident ∧ a.ty = .lparen ∧ b.ty = .ident ∧ c.ty = .rparen ∧
        ((pAt .ident rest ∧ sameLine i (rest.head?.getD eofTok)) ∨ pAt .star rest) then
      some (c, rest)
    else
      match rest with
      | d :: e :: f :: _ =>
        if i.ty = .ident ∧ isListEntry i ∧ a.ty = .lparen ∧ b.ty = .ident ∧ c.ty = .comma ∧
            d.ty = .ident ∧ e.ty = .rparen ∧ f.ty = .semi then
          some (e, f :: rest.drop 3)
        else none
      | _ => none
  | _ => none

/-- A type found ahead, `struct parser_type`, parser-type.h: its last token, what follows it and the
left parenthesis of the arguments of a function pointer. With `ruled` the type is followed by an
alignment, the argument `rl` of `parser_type`, parser-type.c:209-222. -/
structure TI where
  fin : Tok
  rest : List Tok
  args : Option Nat := none
  ruled : Bool := false
deriving DecidableEq, Repr

/-- `while (lexer_if(lx, TOKEN_STAR, &tk)) type->end = tk`, parser-cpp.c:93-97. -/
def stars (fin : Tok) : List Tok → Tok × List Tok
  | [] => (fin, [])
  | t :: ts => if t.ty = .star then stars t ts else (fin, t :: ts)

/-- `while (lexer_if(lx, TOKEN_IDENT, &ident)) continue`, parser-cpp.c:105-106. -/
def lastIdent (i : Tok) : List Tok → Tok × List Tok
  | [] => (i, [])
  | t :: ts => if t.ty = .ident then lastIdent t ts else (i, t :: ts)

/-- `parser_cpp_peek_decl`, parser-cpp.c:72-114. -/
def cppPeekDecl (root : Bool) (ts0 : List Tok) : Option TI :=
  match pWhile isQS ts0 with
  | [] => none
  | macro_ :: ts1 =>
    if macro_.ty = .ident then
      match parens ts1 with
      | none => none
      | some (rp, ts2) =>
        let (fin, ts3) := stars rp ts2
        let r : TI := { fin := fin, rest := ts3 }
        if pAt .equal ts3 then some r
        else if root && pAt .semi ts3 then some r
        else
          match ts3 with
          | i :: ts4 =>
            if i.ty = .ident then
              let (j, ts5) := lastIdent i ts4
              if sameLine macro_ j || pAt .semi ts5 then some r else none
            else none
          | [] => none
    else none

/-- `parser_cpp_peek_x`, parser-cpp.c:121-156: the right parenthesis and what follows. -/
def cppPeekX (pv : Option Tok) (ts0 : List Tok) : Option (Tok × List Tok) :=
  match pWhile isStorage ts0 with
  | [] => none
  | i :: ts1 =>
    if i.ty = .ident then
      match parens ts1 with
      | none => none
      | some (rp, ts2) =>
        let nx := ts2.head?.getD eofTok
        if (pv.all fun p => lineBefore p i) &&
            lineBefore rp nx && (decide (i.cno = 1) || decide (nx.cno ≤ i.cno)) then
          some (rp, ts2)
        else none
    else none

/-- Does the text end like this? -/
def endsWith (s suf : List Char) : Bool := decide (s.drop (s.length - suf.length) = suf)

/-- `iscdefs`, parser-cpp.c:267-293. -/
def isCdefs (s : List Char) : Bool :=
  endsWith s "_BEGIN_DECLS".toList || endsWith s "_END_DECLS".toList ||
  (decide (s.take 2 = "__".toList) && (s.drop 2).all fun c =>
    (decide ('A' ≤ c) && decide (c ≤ 'Z')) || (decide ('0' ≤ c) && decide (c ≤ '9')) ||
      decide (c = '_'))

/-- The condition of `parser_cpp_cdefs`, parser-cpp.c:206-213. -/
def cdefsPeek : List Tok → Bool
  | i :: ts => decide (i.ty = .ident) && lineBefore i (ts.head?.getD eofTok) && isCdefs i.str
  | [] => false

/-- The condition of `parser_cpp_decl_root`, parser-cpp.c:229-233. -/
def declRootPeek : List Tok → Bool
  | i :: j :: _ => decide (i.ty = .ident) && decide (j.ty = .semi)
  | _ => false

/-! ## parser-type.c -/

/-- `peek_type_func_ptr`, parser-type.c:309-352: identity of the left parenthesis of the arguments if
there are any, last token and what follows it. -/
def funcPtr (ts : List Tok) : Option (Option Nat × Tok × List Tok) :=
  match (pIf (is .lparen) ts).bind (pIf (is .star)) with
  | none => none
  | some a =>
    let b := pOpt isQual (pWhile (is .star) (pOpt isQual a))
    let ident := pAt .ident b
    let c := pOpt (is .ident) b
    let d := match pIf (is .lsquare) c with
      | none => c
      | some d => pOpt (is .rsquare) (pOpt (is .literal) d)
    match d with
    | [] => none
    | rp :: e =>
      if rp.ty = .rparen then
        match parens e with
        | some (rhs, f) => some (e.head?.map Tok.id, rhs, f)
        | none =>
          if !ident && (pAt .rparen e || e.isEmpty) then some (none, rp, e) else none
      else none

/-- `peek_type_ptr_array`, parser-type.c:354-373. -/
def ptrArray (ts : List Tok) : Option (Tok × List Tok) :=
  match ((pIf (is .lparen) ts).bind (pIf (is .star))).bind fun a =>
      ((pIf (is .rparen) (pOpt (is .ident) a)).bind (pIf (is .lsquare))).bind
        (pIf fun ty => decide (ty = .literal) || decide (ty = .ident)) with
  | some (rs :: r) => if rs.ty = .rsquare then some (rs, r) else none
  | _ => none

/-- `peek_type_ident_after_type`, parser-type.c:375-396. -/
def identAfterType : List Tok → Bool
  | i :: ts =>
    decide (i.ty = .ident) &&
      (let nx := (ts.head?.getD eofTok).ty
       isAssign nx || decide (nx = .lsquare) ||
        (decide (nx = .lparen) && !pAt .star ts.tail) || decide (nx = .rparen) ||
        decide (nx = .semi) || decide (nx = .comma) || decide (nx = .colon) ||
        decide (nx = .attribute))
  | [] => false

/-- `peek_type_noident`, parser-type.c:398-411. -/
def noIdent : List Tok → Option (Tok × List Tok)
  | i :: ts =>
    if i.ty = .ident ∧ (pAt .rparen ts ∨ pAt .comma ts) then some (i, ts) else none
  | [] => none

/-- `peek_type_squares`, parser-type.c:444-458. -/
def squares (ts : List Tok) : Option (Tok × List Tok) :=
  match (pIf (is .lsquare) ts).map (pOpt (is .literal)) with
  | some (r :: rest) => if r.ty = .rsquare then some (r, rest) else none
  | _ => none

/-- `peek_type_unknown_array`, parser-type.c:413-428. -/
def unknownArray (ts : List Tok) : Option (Tok × List Tok) :=
  (pIf (is .ident) ts).bind squares

/-- `peek_type_unknown_bitfield`, parser-type.c:430-442. -/
def unknownBitfield : List Tok → Option (Tok × List Tok)
  | i :: c :: l :: rest =>
    if i.ty = .ident ∧ c.ty = .colon ∧ l.ty = .literal then some (i, c :: l :: rest) else none
  | _ => none

/-- `PARSER_TYPE_CAST`, `PARSER_TYPE_ARG` and `PARSER_TYPE_EXPR`, parser-type.h:5-7. -/
structure TF where
  cast : Bool := false
  arg : Bool := false
  expr : Bool := false

/-- The variables of the loop of `parser_type_peek`, parser-type.c:36-49. -/
structure TL where
  ts : List Tok
  fin : Option (Tok × List Tok) := none
  args : Option Nat := none
  found : Bool := false
  nkeywords : Nat := 0
  ntokens : Nat := 0
  unknown : Bool := false

/-- One round of the loop, parser-type.c:64-130. `none`: the loop is left with the variables as
they are, before `ntokens` is incremented. -/
def typeRound (F : TF) (v : TL) : TL × Bool :=
  match v.ts with
  | [] => (v, false)
  | t :: ts =>
    if isQS t.ty then
      ({ v with ts := ts, fin := some (t, ts), nkeywords := v.nkeywords + 1 }, true)
    else if isType t.ty then
      let (e, r) : Tok × List Tok :=
        if t.ty = .kEnum ∨ t.ty = .kStruct ∨ t.ty = .kUnion then
          match ts with
          | i :: r => if i.ty = .ident then (i, r) else (t, ts)
          | [] => (t, ts)
        else (t, ts)
      let (e, r) : Tok × List Tok :=
        match squares r with
        | some (rs, r') => (rs, r')
        | none => (e, r)
      ({ v with ts := r, fin := some (e, r), found := true }, true)
    else if v.ntokens > 0 ∧ t.ty = .star then
      let v := { v with ts := ts, fin := some (t, ts) }
      if pAt .ident ts then (v, false) else ({ v with found := true }, true)
    else
      match cppPeekType v.ts with
      | some (rp, r) => ({ v with ts := r, fin := some (rp, r), found := true }, true)
      | none =>
        if t.ty = .ident then
          if !F.cast && !F.expr && identAfterType v.ts then (v, false)
          else
            ({ v with ts := ts, fin := some (t, ts)
                      found := v.found || decide (v.nkeywords > 0) }, true)
        else
          match (if v.ntokens > 0 then funcPtr v.ts else none) with
          | some (args, e, r) => ({ v with args := args, fin := some (e, r), found := true }, false)
          | none =>
            match (if v.ntokens > 0 then ptrArray v.ts else none) with
            | some (rs, r) => ({ v with fin := some (rs, r), found := true }, false)
            | none => ({ v with unknown := true }, false)

/-- The loop, parser-type.c:63-131. -/
def typeLoop (F : TF) (sizeof : Bool) : Nat → TL → TL
  | 0, v => v
  | n + 1, v =>
    let (v', go) := typeRound F v
    if go then
      let v' := { v' with ntokens := v'.ntokens + 1 }
      if sizeof then v' else typeLoop F sizeof n v'
    else v'

/-- `parser_type_peek`, parser-type.c:32-177. `pv` is the last consumed token. -/
def typePeek (F : TF) (pv : Option Tok) (ts : List Tok) : Option TI :=
  let early : Option (Tok × List Tok) :=
    match (if F.cast || F.arg then (noIdent ts).or (unknownArray ts) else none) with
    | some x => some x
    | none => unknownBitfield ts
  match early with
  | some (e, r) => some { fin := e, rest := r }
  | none =>
    let v := typeLoop F (decide (pv.map Tok.ty = some .sizeof)) (ts.length + 1) { ts := ts }
    let found :=
      if v.ntokens > 0 ∧ v.ntokens = v.nkeywords ∧ !F.arg then false
      else if !v.found ∧ !v.unknown ∧ v.ntokens > 0 then true
      else v.found
    if found then v.fin.map fun x => { fin := x.1, rest := x.2, args := v.args } else none

/-! ## parser-func.c -/

/-- `enum parser_func_peek`, parser-func.h. -/
inductive FK where
  | none | decl | impl
deriving DecidableEq, Repr

/-- `parser_func_peek1`, parser-func.c:52-103: what it is, the type, and whether a function pointer
is returned, recorded by `TOKEN_FLAG_TYPE_FUNC`. The flag is kept with the type instead of the
token. -/
def funcPeek (pv : Option Tok) (ts : List Tok) : FK × Option TI × Bool :=
  let ts1 := attrSkip true ts
  let pv1 := match attrPeek true ts with | some (t, _) => some t | .none => pv
  match typePeek {} pv1 ts1 with
  | .none => (.none, .none, false)
  | some ti =>
    let ts2 := attrSkip true ti.rest
    let hd : Option (List Tok × Bool) :=
      match pIf (is .ident) ts2 with
      | some a => some (a, false)
      | .none =>
        match ((((pIf (is .lparen) ts2).bind (pIf (is .star))).bind (pIf (is .ident))).bind parens).bind
            fun x => pIf (is .rparen) x.2 with
        | some a => some (a, true)
        | .none => .none
    match hd with
    | .none => (.none, some ti, false)
    | some (a, f) =>
      match parens a with
      | .none => (.none, some ti, f)
      | some (rp, b) =>
        let c := attrSkip false b
        let pv2 := match attrPeek false b with | some (t, _) => some t | .none => some rp
        if pAt .semi c then (.decl, some ti, f)
        else if pAt .lbrace c then (.impl, some ti, f)
        else if (typePeek {} pv2 c).isSome then (.impl, some ti, f)
        else (.none, some ti, f)

/-- `parser_func_arg_peek`, parser-func.c:428-443. -/
def funcArgPeek (pv : Option Tok) (ts : List Tok) : Option TI :=
  let pv1 := match attrPeek false ts with | some (t, _) => some t | none => pv
  typePeek { arg := true } pv1 (attrSkip false ts)

/-! ## parser-stmt.c -/

/-- `peek_else_if`, parser-stmt.c:249-262. -/
def peekElseIf : List Tok → Bool
  | e :: i :: _ => decide (e.ty = .kElse) && decide (i.ty = .kIf) && sameLine e i
  | _ => false

/-- The condition of `parser_stmt_label`, parser-stmt.c:623-628. -/
def labelPeek : List Tok → Bool
  | i :: c :: _ => decide (i.ty = .ident) && decide (c.ty = .colon)
  | _ => false

/-- The condition of `parser_stmt_cpp`, parser-stmt.c:852-858. -/
def stmtCppPeek (ts : List Tok) : Bool :=
  match (pIf (is .ident) ts).bind parens with
  | some (_, r) => !pAt .semi r
  | none => false

/-- The condition of `parser_extern`, parser-extern.c:17-22: the right brace. -/
def externPeek (ts : List Tok) : Option Tok :=
  (((pIf (is .kExtern) ts).bind (pIf (is .string))).bind (pair .lbrace .rbrace)).map (·.1)

/-- `peek_binary_operator` and the condition of `expr_recover_cast`, parser-expr.c:155-185, given
whether there is white space around an operator. -/
def castPeek (spaces : Bool) (pv : Option Tok) (ts : List Tok) : Option TI :=
  match typePeek { cast := true } pv ts with
  | none => none
  | some ti =>
    match ti.rest with
    | [] => none
    | rp :: r =>
      if rp.ty = .rparen ∧ ¬ pAt .rparen r ∧ ¬ pAt .comma r ∧
          ¬ (isBinary (r.head?.getD eofTok).ty ∧ spaces) ∧
          ¬ (pAt .amp r ∧ pAt .tilde r.tail) ∧
          ¬ (if pAt .amp r then r.tail else r).isEmpty then some ti
      else none

end Knfmt.Parse
