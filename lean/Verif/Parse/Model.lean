import Verif.Parse.Peek
/-!
# The parser, part 3: the functions

Every function takes the documents it is given in the C code. Recursive calls go through the record
`Rec`, tied together by `recs`.
-/
namespace Knfmt.Parse
open Knfmt.Lexer (TT)
open Knfmt.Expr (Rule Func findRule)

/-- `struct expr`, expr.c:77-94, see `Knfmt.Expr.Ex`. A `recov` holds the tokens and the white
space of the document made by the callback and whether the last token looked at before was a left brace. -/
inductive Ex where
  | null
  | lit (tk : Tok)
  | un (op : Tok) (e : Ex)
  | pre (op : Tok) (e : Ex)
  | post (e : Ex) (op : Tok)
  | bin (l : Ex) (op : Tok) (r : Ex)
  | tern (c : Ex) (q : Tok) (m : Ex) (colon : Option Tok) (t : Ex)
  | parens (l : Tok) (e : Ex) (r : Option Tok)
  | call (f : Ex) (l : Tok) (args : Ex) (r : Option Tok)
  | squares (f : Ex) (l : Tok) (idx : Ex) (r : Option Tok)
  | field (l : Ex) (op : Tok) (r : Ex)
  | cast (l : Tok) (ty : List (Option Tok)) (r : Option Tok) (e : Ex)
  | sizeofE (tk : Tok) (e : Ex)
  | sizeofP (tk : Tok) (l : Tok) (e : Ex) (r : Option Tok)
  | concat (e : Ex) (tk : Tok)
  | recov (ts : List (Option Tok))
deriving DecidableEq, Repr

/-- `struct parser_expr_arg`, parser-expr.h: the document, the token to stop at and those flags
(expr.h) that add a line. -/
structure EA where
  dc : Id
  stop : Option Nat := none
  line : Bool := false
  soft : Bool := false
  hard : Bool := false

/-- Flags of `parser_decl`, parser-decl.h:5-15. The flags of the simple passes are left out. -/
structure DF where
  brk : Bool := false
  line : Bool := false
  root : Bool := false
  trimSemi : Bool := false

/-- Flags of `parser_stmt_block`, parser-stmt.h:8-10. -/
structure BF where
  switch : Bool := false
  trim : Bool := false
  gnu : Bool := false

/-- Flags of `parser_braces`, parser-braces.h:4-9. -/
structure CF where
  enum : Bool := false
  dedent : Bool := false

/-- The functions called recursively. -/
structure Rec where
  expr : EA → M (Res × Option Id)
  type : Id → TI → M Res
  braces : Id → CF → M Res
  block : Id → Id → BF → M (Res × Option Id)
  stmt : Id → M Res
  decl : Id → DF → M Res
  root : Id → M Res

/-- Everything a function depends on: the oracle, the functions called recursively and the fuel of
its loops. -/
structure Cx where
  E : Env
  R : Rec
  n : Nat

/-- Record tokens consumed on behalf of an expression that has been given up: compare with the number
of tokens consumed before. -/
def noteSwallow (n : Nat) : M Unit := fun s =>
  some ((), { s with gh := { s.gh with swallowed := s.gh.swallowed || decide (s.done.length ≠ n) } })

/-- Number of consumed tokens. -/
def pos : M Nat := read fun s => s.done.length

/-! ## parser-expr.c, callbacks -/

/-- Consume the next token and make a document out of it, parser-expr.c:111-118 and 135-139. -/
def popDoc : M (List (Option Tok)) := do
  let t ← pop
  let x ← withRoot fun d => emit t d
  return x.2

/-- `parser_braces`, and `parser_stmt_expr_gnu` if it fails, parser-expr.c:119-134. The latter starts
over: `parser_reset`, `lexer_seek`. -/
def recoverBraces (X : Cx) : M (Option (List (Option Tok))) := fun s =>
  match withRoot (fun d => X.R.braces d { dedent := true }) s with
  | none => none
  | some ((r, ts), s1) =>
    if r = .good then some (some ts, s1)
    else if r = .fail then
      match withRoot (fun d => X.R.block d d { gnu := true }) (restore s s1) with
      | none => none
      | some (((r, _), ts), s2) => if r = .good then some (some ts, s2) else some (none, s2)
    else some (none, s1)

/-- `expr_recover` once a type has been found, parser-expr.c:94-107. -/
def recoverType (X : Cx) (ti : TI) : M (Option (List (Option Tok))) := do
  let sz ← backIf .sizeof
  let lp ← backIf .lparen
  let co ← backIf .comma
  let nx : TT := (ti.rest.head?.getD eofTok).ty
  if sz || ((lp || co) && (decide (nx = .rparen) || decide (nx = .comma) || decide (nx = .eof))) then
    let x ← withRoot fun d => X.R.type d ti
    if x.1 = .good then return some x.2
    return none
  else return none

/-- `expr_recover`, parser-expr.c:85-143. -/
def exprRecover (X : Cx) : M (Option (List (Option Tok))) := do
  let ti ← read fun s => typePeek { expr := true } s.done.head? s.rest
  match ti with
  | some ti => recoverType X ti
  | none =>
    let nx ← peek
    if isBinary nx.ty then
      let lp ← backIf .lparen
      let co ← backIf .comma
      if lp || co then
        let ts ← popDoc
        return some ts
      else
        let _ ← pop
        return none
    else if nx.ty = .lbrace then recoverBraces X
    else if nx.ty = .comma then
      let ts ← popDoc
      return some ts
    else return none

/-- `expr_recover_cast`, parser-expr.c:155-185. -/
def exprRecoverCast (X : Cx) : M (Option (List (Option Tok))) := do
  let sp ← X.E.q 1
  let ti ← read fun s => castPeek sp s.done.head? s.rest
  match ti with
  | none => return none
  | some ti =>
    let x ← withRoot fun d => X.R.type d ti
    if x.1 = .good then return some x.2
    return none

/-- `expr_exec_recover` and `expr_exec_recover_cast`, expr.c:431-459, noting whether a callback has
consumed tokens in vain. -/
def callback (m : M (Option (List (Option Tok)))) : M (Option (List (Option Tok))) := do
  let n ← pos
  let r ← m
  match r with
  | some ts => return some ts
  | none =>
    noteSwallow n
    return none

/-! ## expr.c, parsing -/

/-- `expr_exec_peek`, expr.c:668-681. -/
def exPeek (stop : Option Nat) : M (Option Tok) := read fun s =>
  if s.err then none else
  match s.rest with
  | [] => none
  | t :: _ => if some t.id = stop then none else some t

/-- Parsing with a given precedence. -/
abbrev Par := Nat → M Ex

/-- `expr_exec_sizeof`, expr.c:593-612. -/
def execSizeof (f : Par) (r : Rule) (tk : Tok) : M Ex := do
  let l ← lexIf (is .lparen)
  match l with
  | some l =>
    let e ← f 0
    let rp ← expect .rparen
    return .sizeofP tk l e rp
  | none =>
    let e ← f r.pc
    return .sizeofE tk e

/-- `expr_exec_parens` without a left hand side, expr.c:541-576. -/
def execParens (X : Cx) (f : Par) (r : Rule) (tk : Tok) : M Ex := do
  let c ← callback (exprRecoverCast X)
  match c with
  | some ts =>
    let rp ← expect .rparen
    let e ← f r.pc
    return .cast tk ts rp e
  | none =>
    let e ← f 0
    let rp ← expect .rparen
    return .parens tk e rp

/-- The function of a unary rule, see `Knfmt.Expr.nud`. -/
def nud (X : Cx) (f : Par) (r : Rule) (tk : Tok) : M Ex :=
  match r.func with
  | .literal => pure (.lit tk)                              -- expr.c:519-525
  | .unary => f r.pc >>= fun e => pure (.un tk e)           -- expr.c:655-666
  | .prepost => f r.pc >>= fun e => pure (.pre tk e)        -- expr.c:583-585
  | .sizeof => execSizeof f r tk
  | .parens => execParens X f r tk
  | _ => pure .null

/-- `expr_exec_ternary`, expr.c:633-653. -/
def execTernary (f : Par) (lhs : Ex) (tk : Tok) : M Ex := do
  let m ← f 0
  let c ← expect .colon
  let t ← f 1
  if t = .null then return .null
  return .tern lhs tk m c t

/-- The function of a binary rule, see `Knfmt.Expr.led`. -/
def led (f : Par) (r : Rule) (lhs : Ex) (tk : Tok) : M Ex :=
  match r.func with
  | .binary =>                                              -- expr.c:461-476
    f (if r.rassoc then r.pc - 1 else r.pc) >>= fun e => pure (.bin lhs tk e)
  | .concat => pure (.concat lhs tk)                        -- expr.c:478-504
  | .field => f r.pc >>= fun e => pure (.field lhs tk e)    -- expr.c:506-517
  | .parens => do                                           -- expr.c:563-575
    let e ← f 0
    let rp ← expect .rparen
    return .call lhs tk e rp
  | .prepost => pure (.post lhs tk)                         -- expr.c:586-589
  | .squares => do                                          -- expr.c:614-631
    let e ← f 0
    let rs ← expect .rsquare
    return .squares lhs tk e rs
  | .ternary => execTernary f lhs tk
  | _ => pure .null

/-- First half of `expr_exec1`, expr.c:376-401. -/
def operand (X : Cx) (stop : Option Nat) (f : Par) : M Ex := do
  let tk ← exPeek stop
  match tk with
  | none => return .null
  | some tk =>
    match findRule tk.ty true with
    | none =>
      let c ← callback (exprRecover X)
      match c with
      | some ts => return .recov ts
      | none => return .null
    | some r =>
      if tk.ty = .ident then
        let c ← callback (exprRecover X)
        match c with
        | some ts => return .recov ts
        | none => pop >>= nud X f r
      else pop >>= nud X f r

/-- One round of the loop of `expr_exec1`, expr.c:403-426. -/
def exLoop (stop : Option Nat) (f : Par) (pc : Nat) (ex : Ex) : M (Ex ⊕ Ex) := do
  let tk ← exPeek stop
  match tk with
  | none => return .inr ex
  | some tk =>
    match findRule tk.ty false with
    | none => return .inr ex
    | some r =>
      if r.pc ≤ pc then return .inr ex
      let tk ← pop
      let x ← led f r ex tk
      let e ← read St.err
      if x = .null ∨ e = true then return .inr .null
      return .inl x

/-- `expr_exec1`, expr.c:372-429. Tokens consumed although no expression is given back are noted. -/
def exec1 (X : Cx) (stop : Option Nat) : Nat → Par
  | 0, _ => fun _ => none
  | n + 1, pc => do
    let p ← pos
    let x ← operand X stop (exec1 X stop n)
    let r ← if x = .null then pure Ex.null else loop n (exLoop stop (exec1 X stop n) pc) x
    when (decide (r = .null)) (noteSwallow p)
    return r

/-! ## expr.c, the document -/

/-- `doc_indent` and `doc_dedent`, doc.c:496-513. -/
def indentIn (d : Id) : M Id := allocIn .indent d

/-- `expr_doc_align` and `expr_doc_align_disable`, expr.c:1174-1208, `doc_minimize`. -/
def alignIn (d : Id) : M Id := allocIn .minimize d

/-- `expr_doc_align` depending on the style. -/
def alignIf (b : Bool) (d : Id) : M Id := if b then alignIn d else pure d

/-- An optional token. -/
def emitOpt (o : Option Tok) (d : Id) : M Unit :=
  match o with
  | some t => emit t d
  | none => pure ()

/-- `expr_doc_soft`, expr.c:1255-1284. -/
def soft (X : Cx) (m : Id → M Id) (d : Id) : M Id := do
  let b ← X.E.q 10
  if b then m d else
  let c ← allocIn .group d
  let l ← lay .softline c
  let p ← alloc .concat c
  let r ← m p
  let b ← X.E.q 11
  when b (rmSoft l)
  return r

/-- `expr_doc_soft` or `expr_doc`. -/
def softIf (X : Cx) (b : Bool) (m : Id → M Id) (d : Id) : M Id := if b then soft X m d else m d

/-- `if (ex != NULL) dc = expr_doc(ex, es, dc)`. -/
def docOpt (e : Ex) (m : Id → M Id) (d : Id) : M Id := if e = .null then pure d else m d

/-- Does the type have `TOKEN_FLAG_SPACE`, token.h:56, 68, 82? Only such operators may be written
without spaces, expr.c:1218-1249. -/
def spaceFlag (ty : TT) : Bool := decide (ty = .star) || decide (ty = .slash) || decide (ty = .pipe)

/-- The type of the first token of the document of an expression. Nothing if there is none, or if it
begins with white space. -/
def first : Ex → Option TT
  | .null => none
  | .lit t => some t.ty
  | .un op _ => some op.ty
  | .pre op _ => some op.ty
  | .post e _ => first e
  | .bin l _ _ => first l
  | .tern c _ _ _ _ => first c
  | .parens l _ _ => some l.ty
  | .call f _ _ _ => first f
  | .squares f _ _ _ => first f
  | .field l _ _ => first l
  | .cast l _ _ _ => some l.ty
  | .sizeofE t _ => some t.ty
  | .sizeofP t _ _ _ => some t.ty
  | .concat e _ => first e
  | .recov ts => ts.head?.join.map Tok.ty

/-- Would the document of `e`, added to `d`, be read as one with the token before? -/
def before (e : Ex) (d : Id) (L : List Ev) : Bool :=
  match first e with
  | some ty => glues d ty L
  | none => tight d L

/-- Record that the document of `e`, about to be added to `d`, would be read as one with the token
before it. -/
abbrev noteBefore (e : Ex) (d : Id) : M Unit := note (before e d)

/-- `expr_doc_binary`, expr.c:810-894, given what documents the operands. -/
def docBinary (X : Cx) (op : Tok) (r : Ex) (ml mr : Id → M Id) (d : Id) : M Id :=
  if isAssign op.ty then do
    let lhs ← ml d
    lay_ .blank lhs
    emit op lhs
    lay_ .blank lhs
    if r = .null then return d
    let a ← X.E.q 12
    let d ← alignIf a d
    let b ← X.E.q 13
    softIf X b mr d
  else do
    let before ← X.E.q 14
    let a ← X.E.q 15
    let d ← alignIf a d
    let lhs ← ml d
    let sp ← X.E.q 16
    let sp := !spaceFlag op.ty || sp
    if before then
      when sp (lay_ .line lhs)
      when (!sp) (noteGlue op.ty lhs)
      let d ← allocIn .group d
      lay_ .softline d
      emit op d
      when sp (lay_ .blank d)
      when (!sp && decide (r ≠ .null)) (noteBefore r d)
      docOpt r mr d
    else
      when sp (lay_ .blank lhs)
      when (!sp) (noteGlue op.ty lhs)
      emit op lhs
      let d ← allocIn .group d
      let h ← X.E.q 17
      when h (lay_ .hardline lhs)
      when (!h && sp) (lay_ .line d)
      when (!h && !sp && decide (r ≠ .null)) (noteBefore r d)
      docOpt r (soft X mr) d

/-- `expr_doc_parens`, expr.c:896-924. -/
def docParens (X : Cx) (l : Tok) (e : Ex) (r : Option Tok) (m : Id → M Id) (d : Id) : M Id := do
  emit l d
  let b ← X.E.q 18
  let d ← if b then indentIn d else pure d
  let d ← docOpt e m d
  emitOpt r d
  return d

/-- `expr_doc_call`, expr.c:937-998. -/
def docCall (X : Cx) (l : Tok) (args : Ex) (r : Option Tok) (mf ma : Id → M Id) (d : Id) : M Id := do
  let b ← X.E.q 19
  let d ← softIf X b mf d
  emit l d
  let a ← X.E.q 20
  let d ← if args = .null then pure d else alignIf a d
  let d ← docOpt args (soft X ma) d
  let fold ← X.E.q 21
  let o ← if fold || r.isNone then pure d else indentIn d
  emitOpt r o
  return d

/-- `expr_doc_arg`, expr.c:1000-1023. -/
def docArg (X : Cx) (op : Tok) (l r : Ex) (ml mr : Id → M Id) (d : Id) : M Id := do
  let lhs ← docOpt l ml d
  emit op lhs
  let a ← X.E.q 22
  let b ← X.E.q 23
  when (a || b) (layIf a .align .line lhs)
  docOpt r (soft X mr) d

/-- `expr_doc_ternary`, expr.c:1076-1138. -/
def docTernary (X : Cx) (q : Tok) (m : Ex) (colon : Option Tok) (mc mm mt : Id → M Id) (d : Id) :
    M Id := do
  let before ← X.E.q 24
  if before then
    let cond ← mc d
    lay_ .line cond
    let a ← X.E.q 25
    let d ← alignIf a d
    let lhs ← allocIn .group d
    lay_ .softline lhs
    emit q lhs
    when (decide (m ≠ .null)) (lay_ .blank lhs)
    let lhs' ← docOpt m (soft X mm) lhs
    when (decide (m ≠ .null)) (lay_ .line lhs')
    let rhs ← allocIn .group d
    lay_ .softline rhs
    emitOpt colon rhs
    lay_ .blank rhs
    mt rhs
  else
    let t ← mc d
    lay_ .line t
    emit q t
    when (decide (m ≠ .null)) (lay_ .line t)
    let t ← docOpt m (soft X mm) d
    when (decide (m ≠ .null)) (lay_ .line t)
    emitOpt colon t
    lay_ .line t
    soft X mt d

/-- `expr_doc` of a literal, expr.c:783-785. -/
def docLit (t : Tok) (d : Id) : M Id := do
  let c ← allocIn .group d
  emit t c
  return c

/-- `expr_doc`, expr.c:694-799, and the functions it calls. The result is the document the caller may
add to and, for an `EXPR_CONCAT`, the one of its last part. With `inner` the expression is the
beginning of an `EXPR_CONCAT`. -/
def exprDoc (X : Cx) : Bool → Ex → Id → M (Id × Id)
  | inner, .concat e tk, d0 => do                                        -- expr.c:1050-1074
    let g ← if inner then pure d0 else allocIn .group d0
    let a ← X.E.q 26
    let d ← alignIf (!inner && a) g
    let x ← exprDoc X true e d
    lay_ .line x.2
    let t ← docLit tk x.1
    return (x.1, t)
  | _, e, d0 => do
    let c ← allocIn .group d0
    let r ← match e with
      | .un op e => do
        emit op c
        when (decide (e ≠ .null)) (noteBefore e c)
        docOpt e (fun d => (exprDoc X false e d) >>= fun x => pure x.1) c -- expr.c:801-808
      | .bin l op r =>
        if op.ty = .comma then
          docArg X op l r (fun d => (exprDoc X false l d) >>= fun x => pure x.1)
            (fun d => (exprDoc X false r d) >>= fun x => pure x.1) c
        else
          docBinary X op r (fun d => (exprDoc X false l d) >>= fun x => pure x.1)
            (fun d => (exprDoc X false r d) >>= fun x => pure x.1) c
      | .tern e1 q m colon t =>
        docTernary X q m colon (fun d => (exprDoc X false e1 d) >>= fun x => pure x.1)
          (fun d => (exprDoc X false m d) >>= fun x => pure x.1)
          (fun d => (exprDoc X false t d) >>= fun x => pure x.1) c
      | .pre op e => do                                                   -- expr.c:726-730
        emit op c
        when (decide (e ≠ .null)) (noteBefore e c)
        let _ ← docOpt e (fun d => (exprDoc X false e d) >>= fun x => pure x.1) c
        pure c
      | .post e op => do                                                  -- expr.c:732-736
        let _ ← docOpt e (fun d => (exprDoc X false e d) >>= fun x => pure x.1) c
        noteGlue op.ty c
        emit op c
        pure c
      | .parens l e r => docParens X l e r (fun d => (exprDoc X false e d) >>= fun x => pure x.1) c
      | .squares f l i r => do                                            -- expr.c:742-751
        let c1 ← docOpt f (fun d => (exprDoc X false f d) >>= fun x => pure x.1) c
        emit l c1
        let c2 ← docOpt i (fun d => (exprDoc X false i d) >>= fun x => pure x.1) c1
        emitOpt r c2
        pure c2
      | .field l op r => do                                               -- expr.c:926-935
        let c1 ← (fun d => (exprDoc X false l d) >>= fun x => pure x.1) c
        noteGlue op.ty c1
        emit op c1
        when (decide (r ≠ .null)) (noteBefore r c1)
        docOpt r (fun d => (exprDoc X false r d) >>= fun x => pure x.1) c1
      | .call f l a r =>
        docCall X l a r (fun d => (exprDoc X false f d) >>= fun x => pure x.1)
          (fun d => (exprDoc X false a d) >>= fun x => pure x.1) c
      | .cast l ts r e => do                                              -- expr.c:765-774
        emit l c
        let g ← allocIn .group c
        adopt ts g
        emitOpt r c
        let _ ← docOpt e (fun d => (exprDoc X false e d) >>= fun x => pure x.1) c
        pure c
      | .sizeofE tk e => do                                               -- expr.c:1025-1048
        emit tk c
        lay_ .blank c
        docOpt e (fun d => (exprDoc X false e d) >>= fun x => pure x.1) c
      | .sizeofP tk l e r => do
        emit tk c
        emit l c
        let c1 ← docOpt e (fun d => (exprDoc X false e d) >>= fun x => pure x.1) c
        emitOpt r c1
        pure c1
      | .lit tk => do
        emit tk c
        pure c
      | .recov ts => do                                                   -- expr.c:1140-1153
        let a ← X.E.q 27
        let c1 ← alignIf a c
        adopt ts c1
        pure c1
      | .concat _ _ => pure c
      | .null => pure c
    return (r, r)

/-- `expr_exec`, expr.c:311-349. -/
def exprExec (X : Cx) (a : EA) : M (Option Id) := do
  let ex ← exec1 X a.stop X.n 0
  let e ← read St.err
  if ex = .null ∨ e = true then return none
  let d ← alloc .maxlines a.dc
  let d ← alloc .scope d
  let d ← alloc .group d
  let d ← alloc .optional d
  let b ← X.E.q 30
  let d ← if b then indentIn d else alloc .concat d
  when a.line (lay_ .line d)
  when a.soft (lay_ .softline d)
  when a.hard (lay_ .hardline d)
  let d ← if a.hard then alloc .optional d else pure d
  let x ← exprDoc X false ex d
  return some x.1

/-- `parser_expr`, parser-expr.c:49-83. -/
def exprF (X : Cx) (a : EA) : M (Res × Option Id) := do
  let r ← exprExec X a
  match r with
  | none =>
    let e ← parserNone
    return (e, none)
  | some d =>
    let e ← parserGood
    return (e, some d)

/-- `parser_expr_peek`, parser-expr.c:23-47, expr.c:351-370: was an expression found, and what is the
token after it? -/
def exprPeek (X : Cx) : M (Option Tok) :=
  peeking do
    let ex ← exec1 X none X.n 0
    let e ← read St.err
    if ex = .null ∨ e = true then return none
    let t ← peek
    return some t

/-! ## parser.c -/

/-- The loop of `parser_semi`, parser.c:380-384: the semicolons on the same line. -/
def semisOn (semi : Tok) : List Tok → List Tok × List Tok
  | [] => ([], [])
  | t :: ts =>
    if t.ty = .semi ∧ sameLine semi t then
      let (a, b) := semisOn semi ts
      (t :: a, b)
    else ([], t :: ts)

/-- `parser_semi`, parser.c:365-393: all semicolons on the line but the first and the last one are
removed, the first one is not emitted if there is another one. -/
def parserSemi (d : Id) : M Res := do
  let o ← expect .semi
  match o with
  | none => parserFail
  | some semi =>
    let last ← fun s =>
      match semisOn semi s.rest with
      | ([], _) => some (semi, s)
      | (t :: ts, r) =>
        let l := (t :: ts).getLast (by simp)
        some (l, { s with done := l :: s.done, rest := r })
    emit last d
    parserGood

/-! ## parser-attributes.c -/

/-- One attribute, parser-attributes.c:66-97: `inl` if another one may follow. -/
def attrRound (X : Cx) (line : Bool) (fin : Tok) (opt : Id) (v : Nat × Option Id) :
    M ((Nat × Option Id) ⊕ (Res × Option Id)) := do
  let t ← lexIf fun ty => decide (ty = .attribute) || decide (ty = .ident)
  match t with
  | none =>
    let g ← parserGood
    return .inr (g, v.2)
  | some t =>
    let b ← X.E.q 40
    when (line || decide (v.1 > 0)) (layIf b .hardline .line opt)
    let c ← allocIn .group opt
    emit t c
    expectEmit .lparen c
    ifEmit .lparen c
    let x ← X.R.expr { dc := c, soft := true }
    match x with
    | (.good, some o) =>
      let rp ← expect .rparen
      emitOpt rp o
      let rp2 ← lexIf (is .rparen)
      emitOpt rp2 o
      let stop := decide ((rp2.or rp) = some fin)
      if stop then
        let g ← parserGood
        return .inr (g, some o)
      return .inl (v.1 + 1, some o)
    | _ =>
      let f ← parserFail
      return .inr (f, v.2)

/-- `parser_attributes`, parser-attributes.c:45-100. Gives back the document stored in `out`. -/
def attributes (X : Cx) (d : Id) (line func : Bool) : M (Res × Option Id) := do
  let p ← read fun s => attrPeek func s.rest
  match p with
  | none =>
    let r ← parserNone
    return (r, none)
  | some (fin, _) =>
    let opt ← allocIn .optional d
    loop X.n (attrRound X line fin opt) (0, none)

/-! ## parser-func.c, arguments -/

/-- `if (parser_attributes(pr, ..., &out, ...) & GOOD) doc_alloc(DOC_LINE, out)`,
parser-func.c:217-218, 326-327. -/
def layOn (x : Res × Option Id) : M Unit :=
  match x with
  | (.good, some o) => lay_ .line o
  | _ => pure ()

/-- The loop of `parser_func_arg`, parser-func.c:235-264. -/
def funcArgRound (X : Cx) (rparen : Nat) (c : Id) (pv : Option Tok) :
    M ((Option Tok) ⊕ Res) := do
  let nx ← peek
  if nx.ty = .eof then
    let r ← parserFail
    return .inr r
  let a ← attributes X c true false
  if a.1 = .fail then
    let r ← parserFail
    return .inr r
  let co ← lexIf (is .comma)
  match co with
  | some t =>
    emit t c
    lay_ .line c
    let r ← parserGood
    return .inr r
  | none =>
    let nx ← peek
    if nx.id = rparen then
      let r ← parserGood
      return .inr r
    let t ← pop
    when (decide (pv.map Tok.ty = some .ident) && decide (t.ty = .ident)) (lay_ .line c)
    when (pv.isSome || decide (t.ty ≠ .ident)) (noteGlue t.ty c)
    emit t c
    return .inl (some t)

/-- `parser_func_arg`, parser-func.c:193-267. Gives back the document stored in `out`. -/
def funcArg (X : Cx) (d : Id) (rparen : Nat) : M (Res × Option Id) := do
  let ti ← read fun s => funcArgPeek s.done.head? s.rest
  match ti with
  | none =>
    let r ← parserNone
    return (r, none)
  | some ti =>
    let c ← allocIn .group d
    noteFree c
    lay_ .softline c
    let c ← allocIn .optional c
    let a ← attributes X c false false
    layOn a
    let t ← X.R.type c ti
    if t ≠ .good then
      let r ← parserFail
      return (r, none)
    let c ← allocIn .group c
    let co ← peekIf .comma
    let rp ← peekIf .rparen
    let at_ ← peekIf .attribute
    when (decide (ti.fin.ty ≠ .star) && !co && !rp && !at_) (lay_ .line c)
    let nx ← peek
    when (decide (ti.fin.ty = .star)) (noteGlue nx.ty c)
    let r ← loop X.n (funcArgRound X rparen c) none
    return (r, some c)

/-- `while (parser_func_arg(...) & GOOD) continue`. Gives back the last document stored in `out`. -/
def funcArgs (X : Cx) (d : Id) (rparen : Nat) : M (Option Id) :=
  loop X.n (fun o => do
    let x ← funcArg X d rparen
    match x with
    | (.good, o') => return .inl (o'.or o)
    | (_, o') => return .inr (o'.or o)) none

/-! ## parser-type.c -/

/-- Is there an alignment after the last token of a type, parser-type.c:179-207? Alignments after
stars, parentheses and squares are elsewhere. -/
def typeAlign (ti : TI) (t : Tok) (s : St) : Bool :=
  decide (t.id = ti.fin.id) && decide (t.ty ≠ .star) && decide (t.ty ≠ .rparen) &&
    decide (t.ty ≠ .rsquare) && decide ((nxt s).ty ≠ .semi)

/-- Tokens of a type that are not followed by a line, parser-type.c:285-287. -/
def typeOpen (ty : TT) : Bool :=
  decide (ty = .star) || decide (ty = .lparen) || decide (ty = .lsquare)

/-- Is there a line between a token of a type and the next one, parser-type.c:284-295? -/
def typeLine (t : Tok) (s : St) : Bool :=
  !typeOpen t.ty && (decide ((nxt s).ty ≠ .lparen) || pAt .star (s.rest.drop 1)) &&
    decide ((nxt s).ty ≠ .lsquare) && decide ((nxt s).ty ≠ .rsquare) &&
    decide ((nxt s).ty ≠ .rparen) && decide ((nxt s).ty ≠ .comma)

/-- The loop of `parser_type`, parser-type.c:224-304. -/
def typeRoundM (X : Cx) (d : Id) (ti : TI) (_ : Unit) : M (Unit ⊕ Res) := do
  let t ← pop
  if some t.id = ti.args then
    emit t d
    let i ← indentIn d
    let _ ← funcArgs X i ti.fin.id
    expectEmit .rparen d
    let r ← parserGood
    return .inr r
  let c ← allocIn .group d
  emit t c
  let x ← if t.ty = .lparen then X.R.expr { dc := c } else pure (.good, some c)
  match x with
  | (.good, some c) =>
    let b ← back
    let t' := if t.ty = .lparen then b.getD eofTok else t
    let al ← X.E.q 50
    let af ← read (typeAlign ti t')
    let al := ti.ruled && (al || af)
    let br ← X.E.q 51
    when al (layIf br .line .align c)
    if t'.id = ti.fin.id then
      when (!al && decide (t.ty = .lparen)) (noteFree c)
      let r ← parserGood
      return .inr r
    let ln ← read (typeLine t')
    when (!al && ln) (lay_ .line c)
    let nx ← peek
    when (!al && typeOpen t'.ty) (noteGlue nx.ty c)
    return .inl ()
  | (r, _) => return .inr r

/-- `parser_type`, parser-type.c:209-307. -/
def typeF (X : Cx) (d : Id) (ti : TI) : M Res := loop X.n (typeRoundM X d ti) ()

/-! ## parser-cpp.c -/

/-- `parser_cpp_x`, parser-cpp.c:158-194. -/
def cppX (X : Cx) (d : Id) : M Res := do
  let p ← read fun s => cppPeekX s.done.head? s.rest
  match p with
  | none => parserNone
  | some (_, after) =>
    let c ← allocIn .group d
    loop X.n (fun (_ : Unit) => do
      let t ← lexIf isStorage
      match t with
      | none => return .inr ()
      | some t =>
        emit t c
        lay_ .line c
        return .inl ()) ()
    let x ← X.R.expr { dc := c, stop := some (after.head?.getD eofTok).id }
    if x.1 ≠ .good then parserFail else
    let b ← X.E.q 60
    when b (lay_ .hardline c)
    parserGood

/-- `parser_cpp_cdefs`, parser-cpp.c:199-219. -/
def cppCdefs (d : Id) : M Res := do
  let p ← read fun s => cdefsPeek s.rest
  if !p then parserNone else
  expectEmit .ident d
  parserGood

/-- `parser_cpp_decl_root`, parser-cpp.c:221-242. -/
def cppDeclRoot (d : Id) : M Res := do
  let p ← read fun s => declRootPeek s.rest
  if !p then parserNone else
  expectEmit .ident d
  expectEmit .semi d
  parserGood

/-! ## parser-stmt-asm.c -/

/-- `doc_asm_operand`, parser-stmt-asm.c:17-26. -/
def docAsmOperand (d : Id) : M Id := do
  let d ← allocIn .group d
  noteFree d
  let b ← backIf .colon
  layIf b .line .softline d
  allocIn .group d

/-- `parser_stmt_asm_operand_cpp`, parser-stmt-asm.c:28-54. -/
def asmOperandCpp (X : Cx) (d : Id) : M Res := do
  let d ← docAsmOperand d
  let stop ← read fun s => (untilComma none 0 s.rest).map Tok.id
  let x ← X.R.expr { dc := d, stop := stop }
  match x with
  | (.good, some o) =>
    let t ← lexIf (is .comma)
    match t with
    | none => parserGood
    | some t =>
      emit t o
      lay_ .line o
      parserGood
  | _ => parserFail

/-- The symbolic name of an operand, parser-stmt-asm.c:72-80. -/
def asmName (d : Id) : M Unit := do
  let l ← lexIf (is .lsquare)
  match l with
  | none => pure ()
  | some t =>
    emit t d
    expectEmit .ident d
    expectEmit .rsquare d
    lay_ .line d

/-- The constraint of an operand, parser-stmt-asm.c:82-86. -/
def asmTemplate (d : Id) : M Unit := do
  let st ← expect .string
  match st with
  | none => pure ()
  | some t =>
    emit t d
    lay_ .line d

/-- `parser_stmt_asm_operand`, parser-stmt-asm.c:56-107. -/
def asmOperand (X : Cx) (d : Id) : M Res := do
  let sq ← peekIf .lsquare
  let st ← peekIf .string
  if !sq && !st then
    let i ← peekIf .ident
    if i then asmOperandCpp X d else parserNone
  else
  let d ← docAsmOperand d
  asmName d
  asmTemplate d
  let lp ← expect .lparen
  match lp with
  | none => parserGood
  | some t =>
    emit t d
    let x ← X.R.expr { dc := d }
    match x with
    | (.good, some o) =>
      expectEmit .rparen o
      let c ← lexIf (is .comma)
      match c with
      | none => parserGood
      | some t =>
        emit t o
        lay_ .line o
        parserGood
    | _ => parserFail

/-- `while (parser_stmt_asm_operand(...) & GOOD) n++`. -/
def asmOperands (X : Cx) (d : Id) : M Unit :=
  loop X.n (fun (_ : Unit) => do
    let r ← asmOperand X d
    if r = .good then return .inl ()
    return .inr ()) ()

/-- Input and output operands, parser-stmt-asm.c:199-218: gives back the last document. -/
def asmOperandList (X : Cx) (opt c : Id) : M Id := do
  let t ← lexIf (is .colon)
  match t with
  | none => return c
  | some t =>
    let c ← allocIn .group opt
    let b ← X.E.q 61
    when b (lay_ .line c)
    emit t c
    let i ← indentIn c
    asmOperands X i
    return i

/-- Clobbers and labels, parser-stmt-asm.c:220-246. -/
def asmExprList (X : Cx) (opt c : Id) : M (Res × Id) := do
  let t ← lexIf (is .colon)
  match t with
  | none => return (.good, c)
  | some t =>
    let c ← allocIn .group opt
    let b ← X.E.q 62
    when b (lay_ .line c)
    emit t c
    let rp ← peekIf .rparen
    when (!rp) (lay_ .line c)
    let x ← X.R.expr { dc := c }
    if x.1 = .fail then
      let r ← parserFail
      return (r, c)
    return (.good, c)

/-- `parser_asm`, parser-stmt-asm.c:151-254. -/
def asm_ (X : Cx) (d : Id) : M Res := do
  let p ← peekIf .assembly
  if !p then parserNone else
  let c ← allocIn .group d
  expectEmit .assembly c
  loop X.n (fun (_ : Unit) => do
    let t ← lexIf fun ty => decide (ty = .volatile) || decide (ty = .kInline) || decide (ty = .goto)
    match t with
    | none => return .inr ()
    | some t =>
      lay_ .line c
      emit t c
      return .inl ()) ()
  let b ← X.E.q 63
  when b (lay_ .line c)
  let o ← alloc .optional d
  let opt ← indentIn o
  expectEmit .lparen opt
  let colon ← read fun s => (until_ .colon s.rest).map Tok.id
  let x ← X.R.expr { dc := opt, stop := colon }
  if x.1 ≠ .good then parserFail else
  let c ← asmOperandList X opt opt
  let c ← asmOperandList X opt c
  let y ← asmExprList X opt c
  if y.1 = .fail then return .fail
  let y ← asmExprList X opt y.2
  if y.1 = .fail then return .fail
  expectEmit .rparen y.2
  parserGood

/-- `parser_stmt_asm`, parser-stmt-asm.c:135-149. -/
def stmtAsm (X : Cx) (d : Id) : M Res := do
  let r ← asm_ X d
  if r ≠ .good then return r
  expectEmit .semi d
  parserGood

/-- `parser_root_asm`, parser-stmt-asm.c:117-127. -/
def rootAsm (X : Cx) (d : Id) : M Res := do
  let r ← stmtAsm X d
  if r ≠ .good then return r
  lay_ .hardline d
  parserGood

/-! ## parser-braces.c -/

/-- `parser_braces_field1`, parser-braces.c:324-382. -/
def bracesField1 (X : Cx) (enum : Bool) (d : Id) : M Res := do
  let l ← lexIf (is .lsquare)
  match l with
  | some t =>
    emit t d
    let x ← X.R.expr { dc := d }
    match x with
    | (.good, some o) =>
      expectEmit .rsquare o
      parserGood
    | _ => parserFail
  | none =>
  let p ← lexIf (is .period)
  match p with
  | some t =>
    emit t d
    expectEmit .ident d
    parserGood
  | none =>
  let i ← lexIf (is .ident)
  match i with
  | none => parserNone
  | some t =>
    noteGlue .ident d
    emit t d
    if enum then
      let lp ← lexIf (is .lparen)
      match lp with
      | none => parserGood
      | some t =>
        emit t d
        let x ← X.R.expr { dc := d }
        if x.1 = .fail then parserFail else
        expectEmit .rparen (if x.1 = .good then x.2.getD d else d)
        parserGood
    else parserGood

/-- `parser_braces_field`, parser-braces.c:278-322. -/
def bracesField (X : Cx) (enum : Bool) (rbrace : Nat) (d : Id) : M Res := do
  let r ← loop X.n (fun (n : Nat) => do
    let r ← bracesField1 X enum d
    match r with
    | .non => return .inr (if n = 0 then Res.fail else .good)
    | .fail => return .inr .fail
    | .good => return .inl (n + 1)) 0
  if r ≠ .good then parserFail else
  let e ← lexIf (is .equal)
  match e with
  | none => parserGood
  | some t =>
    lay_ .align d
    emit t d
    lay_ .blank d
    let stop ← read fun s => ((untilComma (some rbrace) 0 s.rest).map Tok.id).getD rbrace
    let b ← X.E.q 70
    let x ← X.R.expr { dc := d, stop := some stop, hard := b }
    if x.1 ≠ .good then parserFail else
    parserGood

/-- `peek_expr_stop` and `lbrace_cache_lookup`, parser-braces.c:384-413. The cache keeps the first left
brace found, or that there is none. -/
def peekExprStop (rbrace : Nat) (cache : Option (Option Nat)) (s : St) :
    Nat × Option (Option Nat) :=
  match cppPeekX s.done.head? s.rest with
  | some (_, after) => ((after.head?.getD eofTok).id, cache)
  | none =>
    let lb := cache.getD ((until_ .lbrace s.rest).map Tok.id)
    let stop := lb.getD rbrace
    (((untilComma (some stop) 0 s.rest).map Tok.id).getD stop, some lb)

/-- One element, parser-braces.c:170-208. Gives back the document a comma is added to and the
cache. -/
def bracesElem (X : Cx) (F : CF) (rbrace : Nat) (cache : Option (Option Nat)) (c : Id) :
    M (Res × Id × Option (Option Nat)) := do
  let p ← peekIf .period
  let l ← peekIf .lsquare
  let b ← peekIf .lbrace
  if F.enum || p || l then
    let r ← bracesField X F.enum rbrace c
    return (r, c, cache)
  else if b then
    let r ← X.R.braces c { F with dedent := false }
    return (r, c, cache)
  else
    let stop ← read (peekExprStop rbrace cache)
    let x ← X.R.expr { dc := c, stop := some stop.1 }
    return (x.1, x.2.getD c, stop.2)

/-- What follows an element, parser-braces.c:226-255: white space. `b` is the document of the
braces. -/
def bracesSpace (X : Cx) (F : CF) (rbrace : Nat) (i b c : Id) : M Id := do
  let pv ← back
  let nx ← peek
  let sp ← X.E.q 72
  let ln ← X.E.q 73
  if sp then
    lay_ .space c
    return b
  else if decide (pv.map Tok.ty = some .comma) && (pv.all fun p => sameLine p nx) then
    lay_ .line i
    return b
  else if nx.id = rbrace then
    if ln && F.dedent then
      let b' ← indentIn b
      lay_ .hardline b'
      return b'
    else
      when ln (lay_ .hardline b)
      return b
  else
    let rp := decide (pv.map Tok.ty = some .rparen)
    when (ln || !rp) (lay_ .hardline i)
    when (!ln && rp) (noteFree i)
    return b

/-- One round of the loop of `parser_braces_with_ruler`, parser-braces.c:160-261. The loop variables
are the document of the braces and the cached left brace. -/
def bracesRound (X : Cx) (F : CF) (rbrace : Nat) (i : Id) (v : Id × Option (Option Nat)) :
    M ((Id × Option (Option Nat)) ⊕ (Res × Id)) := do
  let nx ← peek
  if nx.ty = .eof then
    let r ← parserFail
    return .inr (r, v.1)
  if nx.id = rbrace then return .inr (.good, v.1)
  let c ← allocIn .group i
  let x ← bracesElem X F rbrace v.2 c
  if x.1 ≠ .good then
    let r ← parserFail
    return .inr (r, v.1)
  let co ← lexIf (is .comma)
  emitOpt co x.2.1
  let al ← X.E.q 71
  if co.isSome && al then
    lay_ .align c
    return .inl (v.1, x.2.2)
  let b ← bracesSpace X F rbrace i v.1 c
  return .inl (b, x.2.2)

/-- The end of `parser_braces_with_ruler`, parser-braces.c:263-275. -/
def bracesEnd (b : Id) : M Res := do
  expectEmit .rbrace b
  let sp ← read fun s => !(pAt .semi s.rest || pAt .comma s.rest || pAt .rbrace s.rest ||
    pAt .rparen s.rest || pAt .attribute s.rest)
  when sp (lay_ .blank b)
  parserGood

/-- `parser_braces` and `parser_braces_with_ruler`, parser-braces.c:42-54, 86-276. -/
def bracesF (X : Cx) (d : Id) (F : CF) : M Res := do
  let p ← read fun s => pair .lbrace .rbrace s.rest
  match p with
  | none => parserFail
  | some (rbrace, _) =>
    let b ← alloc .concat d
    let l ← expect .lbrace
    match l with
    | none => parserFail
    | some l =>
      emit l b
      let e ← peekIf .rbrace
      let sp ← X.E.q 74
      if e then
        when sp (lay_ .blank b)
        bracesEnd b
      else
        when sp (lay_ .blank b)
        let i ← indentIn b
        let ln ← X.E.q 75
        when ln (lay_ .hardline i)
        let x ← loop X.n (bracesRound X F rbrace.id i) (b, none)
        if x.1 ≠ .good then return x.1
        bracesEnd x.2

/-! ## parser-func.c -/

/-- The part of `parser_func_proto` for a function that returns a function pointer,
parser-func.c:351-369. -/
def protoFuncPtr (X : Cx) (c : Id) : M Res := do
  expectEmit .lparen c
  expectEmit .star c
  expectEmit .ident c
  let p ← read fun s => parens s.rest
  match p with
  | none => parserFail
  | some (rp, _) =>
    expectEmit .lparen c
    let _ ← funcArgs X c rp.id
    expectEmit .rparen c
    expectEmit .rparen c
    return .good

/-- The name of a function in `parser_func_proto`, parser-func.c:370-376. -/
def protoName (g c : Id) : M Res := do
  let i ← expect .ident
  match i with
  | some t =>
    emit t c
    return .good
  | none =>
    rmDoc g
    parserFail

/-- Declarations of arguments in the style of K&R, parser-func.c:412-419. -/
def krArgs (X : Cx) (d : Id) : M Unit := do
  let kr ← alloc .group d
  let i ← indentIn kr
  lay_ .hardline i
  let r ← X.R.decl i {}
  when (decide (r ≠ .good)) (rmDoc kr)

/-- Attributes after the arguments, parser-func.c:421-424. -/
def protoAttrs (X : Cx) (d : Id) : M (Res × Option Id) := do
  let at_ ← alloc .group d
  let i ← indentIn at_
  let a ← attributes X i true false
  when (decide (a.1 ≠ .good)) (rmDoc at_)
  return a

/-- The end of `parser_func_proto`, parser-func.c:412-426: declarations of arguments in the style of
K&R and attributes. -/
def protoTail (X : Cx) (d o : Id) : M (Res × Option Id) := do
  krArgs X d
  let a ← protoAttrs X d
  let r ← parserGood
  return (r, some (a.2.getD o))

/-- The arguments in `parser_func_proto`, parser-func.c:378-410. -/
def protoArgs (X : Cx) (d c : Id) : M (Res × Option Id) := do
  let p ← read fun s => parens s.rest
  match p with
  | none =>
    let r ← parserFail
    return (r, none)
  | some (rp, _) =>
    expectEmit .lparen c
    let b ← X.E.q 80
    let i ← if b then alignIn d else indentIn c
    let o ← funcArgs X i rp.id
    let o := o.getD c
    expectEmit .rparen o
    protoTail X d o

/-- `parser_func_proto`, parser-func.c:310-427. `out` is given back. -/
def funcProto (X : Cx) (d : Id) (ti : TI) (fptr impl : Bool) : M (Res × Option Id) := do
  let a ← attributes X d false true
  if a.1 = .fail then
    let r ← parserFail
    return (r, none)
  layOn a
  let t ← X.R.type d { ti with ruled := true }
  if t ≠ .good then
    let r ← parserFail
    return (r, none)
  let se ← peekIf .semi
  when se (noteFree d)
  let a ← attributes X d false true
  if a.1 = .fail then
    let r ← parserFail
    return (r, none)
  when (decide (a.1 = .good) && !impl) (lay_ .line d)
  let b ← X.E.q 81
  when b (lay_ .hardline d)
  let g ← alloc .group d
  let c ← alloc .concat g
  let r ← if fptr then protoFuncPtr X c else protoName g c
  if r ≠ .good then
    let r ← parserFail
    return (r, none)
  protoArgs X d c

/-- `parser_func_decl` and `parser_func_decl1`, parser-func.c:105-145. -/
def funcDecl (X : Cx) (d : Id) : M Res := do
  let p ← read fun s => funcPeek s.done.head? s.rest
  match p with
  | (.decl, some ti, f) =>
    let c ← allocIn .group d
    let x ← funcProto X c ti f false
    match x with
    | (.good, some o) =>
      let t ← expect .semi
      match t with
      | none => parserGood
      | some t =>
        emitChk t o d
        parserGood
    | _ => parserFail
  | _ => parserNone

/-- `parser_func_impl` and `parser_func_impl1`, parser-func.c:175-191, 269-303. -/
def funcImpl (X : Cx) (d : Id) : M Res := do
  let p ← read fun s => funcPeek s.done.head? s.rest
  match p with
  | (.impl, some ti, f) =>
    let x ← funcProto X d ti f true
    if x.1 ≠ .good then parserFail else
    let b ← peekIf .lbrace
    if !b then parserFail else
    let br ← X.E.q 82
    layIf br .hardline .blank d
    let y ← X.R.block d d {}
    if y.1 ≠ .good then parserFail else
    lay_ .hardline d
    let w ← X.E.q 83
    when w (lay_ .hardline d)
    parserGood
  | _ => parserNone

/-! ## parser-decl.c -/

/-- `parser_decl_bitfield`, parser-decl.c:448-466. -/
def declBitfield (X : Cx) (d : Id) : M Res := do
  let t ← lexIf (is .colon)
  match t with
  | none => parserNone
  | some t =>
    let b ← X.E.q 90
    when b (lay_ .blank d)
    emit t d
    let b ← X.E.q 91
    when b (lay_ .blank d)
    expectEmit .literal d
    parserGood

/-- Parentheses or squares in `parser_decl_init1`, parser-decl.c:352-371. -/
def initParens (X : Cx) (l r : TT) (d : Id) : M Res := do
  expectEmit l d
  let x ← X.R.expr { dc := d }
  expectEmit r (if x.1 = .good then x.2.getD d else d)
  let b ← peekIf .ident
  when b (lay_ .blank d)
  parserGood

/-- `parser_decl_init1`, parser-decl.c:340-394. The second component is the new value of `*out`. -/
def declInit1 (X : Cx) (d : Id) (out : Option Id) : M (Res × Option Id) := do
  let num ← backIf .literal
  let word ← backIf .ident
  let i ← lexIf (is .ident)
  match i with
  | some t =>
    when num (noteGlue .ident d)
    emit t d
    let b ← peekIf .ident
    when b (lay_ .blank d)
    let r ← parserGood
    return (r, some d)
  | none =>
  let sq ← read fun s => (pair .lsquare .rsquare s.rest).isSome
  let pa ← read fun s => (parens s.rest).isSome
  if sq then
    let r ← initParens X .lsquare .rsquare d
    return (r, out)
  else if pa then
    let r ← initParens X .lparen .rparen d
    return (r, out)
  else
  let b ← declBitfield X d
  if b = .good then
    let r ← parserGood
    return (r, out)
  let q ← lexIf isQS
  match q with
  | some t =>
    when (num || word) (noteGlue t.ty d)
    emit t d
    lay_ .blank d
    let r ← parserGood
    return (r, out)
  | none =>
  let s ← lexIf (is .star)
  match s with
  | some t =>
    emit t d
    let r ← parserGood
    return (r, out)
  | none =>
  let a ← attributes X d true false
  if a.1 = .good then
    let se ← peekIf .semi
    let eq ← peekIf .equal
    when (!se && !eq) (lay_ .blank d)
    let r ← parserGood
    return (r, a.2.or out)
  let p ← peekIf .assembly
  if p then
    lay_ .line d
    let r ← asm_ X d
    return (r, a.2.or out)
  let r ← parserNone
  return (r, a.2.or out)

/-- `parser_decl_init_assign`, parser-decl.c:396-446. -/
def declInitAssign (X : Cx) (d : Id) (out : Option Id) (semi : Nat) : M (Res × Option Id) := do
  let e ← lexIf (is .equal)
  match e with
  | none =>
    let r ← parserNone
    return (r, out)
  | some t =>
    let b ← X.E.q 92
    when b (lay_ .blank d)
    noteGlue .equal d
    emit t d
    lay_ .blank d
    let de ← allocIn .indent d
    let lb ← peekIf .lbrace
    if lb then
      let r ← X.R.braces de {}
      if r ≠ .good then
        let r ← parserFail
        return (r, out)
      let r ← parserGood
      return (r, some de)
    else
      let h ← X.E.q 93
      let stop ← read fun s => ((untilComma (some semi) 0 s.rest).map Tok.id).getD semi
      let x ← X.R.expr { dc := de, stop := some stop, hard := h }
      if x.1 ≠ .good then
        let r ← parserFail
        return (r, out)
      let nx ← peek
      when (decide (nx.ty ≠ .comma) && decide (nx.ty ≠ .semi)) (noteFree d)
      let r ← parserGood
      return (r, x.2.or out)

/-- The comma between two variables, parser-decl.c:298-312: gives back the document of the next
one. -/
def declComma (X : Cx) (d c : Id) (co : Option Tok) : M Id :=
  match co with
  | none => pure c
  | some t => do
    emit t c
    let h ← X.E.q 94
    layIf h .hardline .line c
    let c ← allocIn .group d
    lay_ .softline c
    allocIn .group c

/-- One round of the loop of `parser_decl_init`, parser-decl.c:291-320. The loop variables are
`concat`, `*out` and `ninit`. -/
def declInitRound (X : Cx) (d : Id) (semi : Nat) (v : Id × Option Id × Nat) :
    M ((Id × Option Id × Nat) ⊕ (Option Id × Nat)) := do
  let nx ← peek
  if nx.ty = .semi ∧ nx.id = semi then return .inr (v.2.1, v.2.2)
  let co ← lexIf (is .comma)
  let c ← declComma X d v.1 co
  let x ← declInit1 X c v.2.1
  let x ← if x.1 = .non then declInitAssign X c x.2 semi else pure x
  if x.1 ≠ .good then return .inr (x.2, v.2.2)
  return .inl (c, x.2, v.2.2 + 1)

/-- `parser_decl_init`, parser-decl.c:278-326. -/
def declInit (X : Cx) (d : Id) (semi : Nat) : M (Res × Option Id) := do
  let i ← alloc .indent d
  let dc ← alloc .concat i
  let c ← allocIn .group dc
  let x ← loop X.n (declInitRound X dc semi) (c, none, 0)
  when (decide (x.2 = 0)) (rmDocChk i)
  let r ← parserGood
  return (r, x.1)

/-- `parser_decl_braces`, parser-decl.c:468-500. -/
def declBraces (X : Cx) (d : Id) : M Res := do
  let p ← read fun s => (pair .lbrace .rbrace s.rest).isSome
  if !p then parserFail else
  let b ← X.E.q 95
  when b (lay_ .hardline d)
  expectEmit .lbrace d
  let i ← indentIn d
  lay_ .hardline i
  let r ← X.R.decl i {}
  if r = .fail then parserFail else
  lay_ .hardline d
  expectEmit .rbrace d
  let se ← peekIf .semi
  let at_ ← peekIf .attribute
  when (!se && !at_) (lay_ .blank d)
  parserGood

/-- `token_is_decl` for the last token of a type, token.c:354-369. -/
def isDecl (ty : TT) (s : St) : Bool :=
  pAt .lbrace s.rest &&
    match s.done with
    | t :: ts => if t.ty = .ident then decide (ts.head?.map Tok.ty = some ty) else decide (t.ty = ty)
    | [] => false

/-- The braces of a structure, union or enumeration in `parser_decl2`, parser-decl.c:207-233. -/
def declAggregate (X : Cx) (c : Id) : M Res := do
  let st ← read (isDecl .kStruct)
  let un ← read (isDecl .kUnion)
  let en ← read (isDecl .kEnum)
  if st || un then
    let r ← declBraces X c
    if r = .fail then parserFail else return .good
  else if en then
    let p ← read fun s => (pair .lbrace .rbrace s.rest).isSome
    if !p then parserFail else
    let b ← X.E.q 96
    when b (lay_ .hardline c)
    let r ← X.R.braces c { enum := true }
    if r ≠ .good then parserFail else return .good
  else return .good

/-- `while (lexer_if(lx, TOKEN_SEMI, &nx)) lexer_remove(lx, nx)`, parser-decl.c:254-259. -/
def trimSemis : M Unit := fun s => some ((), { s with rest := pWhile (is .semi) s.rest })

/-- The end of `parser_decl2`, parser-decl.c:252-273: the semicolon is added to `o` within `d`. -/
def declSemi (F : DF) (o d : Id) : M Res := do
  let t ← expect .semi
  match t with
  | none => parserGood
  | some t =>
    when F.trimSemi trimSemis
    emitChk t o d
    parserGood

/-- `parser_decl2`, parser-decl.c:156-273. -/
def decl2 (X : Cx) (d : Id) (F : DF) : M Res := do
  let a ← cppCdefs d
  if a = .good then parserGood else
  let b ← if F.root then cppDeclRoot d else pure .non
  if b = .good then parserGood else
  let ti ← read fun s => (typePeek {} s.done.head? s.rest).or (cppPeekDecl F.root s.rest)
  match ti with
  | none => cppX X d
  | some ti =>
    let p ← read fun s => (funcPeek s.done.head? s.rest).1
    match p with
    | .decl => funcDecl X d
    | .impl => parserNone
    | .none =>
      let c ← allocIn .group d
      let t ← X.R.type c { ti with ruled := true }
      if t ≠ .good then parserFail else
      let se ← peekIf .semi
      if se then declSemi F c d else
      let g ← declAggregate X c
      if g ≠ .good then return g
      let semi ← read fun s => until_ .semi s.rest
      match semi with
      | none => parserFail
      | some semi =>
        let x ← declInit X c semi.id
        if x.1 ≠ .good then parserFail else
        declSemi F (x.2.getD c) d

/-- `if (line != NULL) doc_remove(line, dc)`, parser-decl.c:116-117. -/
def rmOpt (l : Option Id) : M Unit :=
  match l with
  | some l => rmLay l
  | none => pure ()

/-- One round of the loop of `parser_decl1`, parser-decl.c:109-141. -/
def declRound (X : Cx) (d : Id) (F : DF) (n : Nat) : M (Nat ⊕ Nat) := do
  let l ← if n > 0 then lay .hardline d >>= fun l => pure (some l) else pure none
  let r ← decl2 X d F
  if r ≠ .good then
    rmOpt l
    return .inr n
  let b ← X.E.q 97
  if F.brk && b then return .inr (n + 1)
  return .inl (n + 1)

/-- `parser_decl` and `parser_decl1`, parser-decl.c:70-154. -/
def declF (X : Cx) (d : Id) (F : DF) : M Res := do
  let dc ← alloc .concat d
  let n ← loop X.n (declRound X dc F) 0
  if n = 0 then
    rmDoc dc
    parserNone
  else
    when F.line (lay_ .hardline dc)
    parserGood

/-! ## parser-stmt.c -/

/-- Remove the semicolon after a right brace, parser-stmt.c:167-173. -/
def rmSemi (i : Nat) : List Tok → List Tok
  | [] => []
  | [t] => [t]
  | t :: u :: ts =>
    if t.id = i ∧ t.ty = .rbrace then if u.ty = .semi then t :: ts else t :: u :: ts
    else t :: rmSemi i (u :: ts)

/-- `is_case_on_same_line`, parser-stmt.c:133-144. -/
def caseOnSameLine (pv : Tok) (s : St) : Bool :=
  decide (pv.ty = .kCase) && decide ((nxt s).ty = .kCase) && sameLine pv (nxt s)

/-- One round of the loop of `parser_stmt_block`, parser-stmt.c:208-218. The loop variables are `pv`
and `nstmt`. -/
def blockRound (X : Cx) (switch : Bool) (rbrace : Nat) (i : Id) (v : Tok × Nat) :
    M ((Tok × Nat) ⊕ Nat) := do
  let r ← X.R.stmt i
  if r ≠ .good then return .inr v.2
  let nx ← peek
  if nx.id = rbrace then return .inr (v.2 + 1)
  let same ← read (caseOnSameLine v.1)
  layIf (switch && same) .blank .hardline i
  let pv ← peek
  return .inl (pv, v.2 + 1)

/-- `parser_stmt_block`, parser-stmt.c:149-246. Gives back `rbrace`. -/
def blockF (X : Cx) (head tail : Id) (F : BF) : M (Res × Option Id) := do
  let p ← read fun s => pair .lbrace .rbrace s.rest
  match p with
  | none =>
    let r ← parserNone
    return (r, none)
  | some (rbrace, _) =>
    (fun s => some ((), { s with rest := rmSemi rbrace.id s.rest }) : M Unit)
    let l ← expect .lbrace
    match l with
    | none =>
      let r ← parserFail
      return (r, none)
    | some l =>
      let b ← X.E.q 100
      when (!F.trim && b) (peeking (withRoot fun d => X.R.decl d {}) >>= fun _ => pure ())
      emit l head
      let i ← if F.switch then pure tail else indentIn tail
      let ln ← lay (if F.gnu then .blank else .hardline) i
      let pv ← peek
      let n ← loop X.n (blockRound X F.switch rbrace.id i) (pv, 0)
      when (decide (n = 0)) (rmWhite ln)
      lay_ (if F.gnu then .blank else .hardline) tail
      let c ← allocIn .group tail
      expectEmit .rbrace c
      let se ← peekIf .semi
      when se (parserSemi c >>= fun _ => pure ())
      let r ← parserGood
      return (r, some c)

/-- Flags of `parser_stmt_kw_expr`, parser-stmt.c:23-24. -/
structure KF where
  dowhile : Bool := false
  elseif : Bool := false

/-- `parser_stmt_kw_expr` after the keyword, parser-stmt.c:519-612. -/
def kwTail (X : Cx) (d stmt : Id) (ty : TT) (F : KF) (rparen : Nat) : M Res := do
  let b ← X.E.q 101
  let o ← if b then allocIn .optional stmt else pure stmt
  expectEmit .lparen o
  let x ← X.R.expr { dc := stmt, stop := some rparen }
  if x.1 = .fail then parserFail else
  let e := if x.1 = .good then x.2.getD stmt else stmt
  expectEmit .rparen e
  if F.dowhile then parserSemi e else
  let lb ← peekIf .lbrace
  if lb then
    lay_ .blank e
    let y ← X.R.block e d { trim := true, switch := decide (ty = .switch) }
    return y.1
  else
    let i ← indentIn d
    lay_ .hardline i
    X.R.stmt i

/-- `parser_stmt_kw_expr`, parser-stmt.c:490-612. -/
def kwExpr (X : Cx) (d : Id) (ty : TT) (F : KF) : M Res := do
  let pre ← if F.elseif then expect .kElse else pure none
  if F.elseif && pre.isNone then parserFail else
  let kw ← expect ty
  match kw with
  | none => parserFail
  | some kw =>
    let p ← read fun s => parens s.rest
    match p with
    | none => parserFail
    | some (rp, _) =>
      let stmt ← allocIn .group d
      emitOpt pre stmt
      when F.elseif (lay_ .blank stmt)
      emit kw stmt
      when (decide (ty ≠ .ident)) (lay_ .blank stmt)
      kwTail X d stmt ty F rp.id

/-- One round of the loop of `parser_stmt_if`, parser-stmt.c:294-338. The loop variable is `dc`. -/
def ifRound (X : Cx) (d : Id) (_ : Unit) : M (Unit ⊕ Res) := do
  let e ← peekIf .kElse
  if !e then
    let r ← parserGood
    return .inr r
  let b ← X.E.q 102
  layIf b .blank .hardline d
  let ei ← read fun s => peekElseIf s.rest
  if ei then
    let r ← kwExpr X d .kIf { elseif := true }
    if r ≠ .good then
      let r ← parserFail
      return .inr r
    return .inl ()
  let t ← expect .kElse
  match t with
  | none =>
    let r ← parserFail
    return .inr r
  | some t =>
    emit t d
    lay_ .blank d
    let lb ← peekIf .lbrace
    if lb then
      let r ← X.R.stmt d
      if r = .fail then
        let r ← parserFail
        return .inr r
      let r ← parserGood
      return .inr r
    else
      let i ← indentIn d
      lay_ .hardline i
      let r ← X.R.stmt i
      if r ≠ .good then
        let r ← parserFail
        return .inr r
      let r ← parserGood
      return .inr r

/-- `parser_stmt_if`, parser-stmt.c:281-341. -/
def stmtIf (X : Cx) (d : Id) : M Res := do
  let p ← peekIf .kIf
  if !p then parserNone else
  let r ← kwExpr X d .kIf {}
  if r ≠ .good then parserFail else
  loop X.n (ifRound X d) ()

/-- An expression that can be empty followed by a token, parser-stmt.c:376-413: gives back the
document the token was added to. -/
def forPart (X : Cx) (l : Id) (line : Bool) (ty : TT) : M (Res × Id) := do
  let x ← X.R.expr { dc := l, line := line }
  if x.1 = .fail then
    let r ← parserFail
    return (r, l)
  let e := if x.1 = .good then x.2.getD l else l
  expectEmit ty e
  return (.good, e)

/-- `parser_stmt_for`, parser-stmt.c:343-437. -/
def stmtFor (X : Cx) (d : Id) : M Res := do
  let t ← lexIf (is .kFor)
  match t with
  | none => parserNone
  | some t =>
    let l ← allocIn .group d
    emit t l
    lay_ .blank l
    expectEmit .lparen l
    let r ← X.R.decl l {}
    let x ← if r = .good then pure (Res.good, l) else forPart X l false .semi
    if x.1 ≠ .good then parserFail else
    let x ← forPart X l true .semi
    if x.1 ≠ .good then parserFail else
    let e ← read St.err
    if e then parserFail else
    let x ← forPart X l true .rparen
    if x.1 ≠ .good then parserFail else
    let lb ← peekIf .lbrace
    if lb then
      lay_ .blank x.2
      X.R.stmt d
    else
      let i ← indentIn d
      lay_ .hardline i
      let r ← X.R.stmt i
      if r ≠ .good then parserFail else
      parserGood

/-- `parser_stmt_dowhile`, parser-stmt.c:439-484. -/
def stmtDowhile (X : Cx) (d : Id) : M Res := do
  let t ← lexIf (is .kDo)
  match t with
  | none => parserNone
  | some t =>
    emit t d
    let lb ← peekIf .lbrace
    if lb then
      lay_ .blank d
      let x ← X.R.block d d { trim := true }
      match x with
      | (.good, some c) =>
        lay_ .blank c
        let w ← peekIf .kWhile
        if w then kwExpr X c .kWhile { dowhile := true } else parserFail
      | _ => parserFail
    else
      let i ← indentIn d
      lay_ .hardline i
      let r ← X.R.stmt i
      lay_ .hardline d
      if r ≠ .good then parserFail else
      let w ← peekIf .kWhile
      if w then kwExpr X d .kWhile { dowhile := true } else parserFail

/-- `parser_stmt_label`, parser-stmt.c:614-666. -/
def stmtLabel (X : Cx) (d : Id) : M Res := do
  let p ← read fun s => labelPeek s.rest
  if !p then parserNone else
  let ni ← allocIn .noindent d
  let b ← X.E.q 103
  when b (lay_ .blank ni)
  expectEmit .ident ni
  let c ← expect .colon
  match c with
  | none => parserGood
  | some c =>
    emit c ni
    let nx ← peek
    if sameLine c nx then
      let i ← indentIn d
      X.R.stmt i
    else parserGood

/-- One round of the loop of `parser_stmt_case`, parser-stmt.c:708-733. -/
def caseRound (X : Cx) (i : Id) (kw : Tok) (_ : Unit) : M (Unit ⊕ Unit) := do
  let c ← peekIf .kCase
  let de ← peekIf .kDefault
  if c || de then return .inr ()
  let nx ← peek
  let l ← lay (if sameLine kw nx then .blank else .hardline) i
  let r ← X.R.stmt i
  if r ≠ .good then
    rmWhite l
    return .inr ()
  return .inl ()

/-- `parser_stmt_case`, parser-stmt.c:668-736. -/
def stmtCase (X : Cx) (d : Id) : M Res := do
  let t ← lexIf fun ty => decide (ty = .kCase) || decide (ty = .kDefault)
  match t with
  | none => parserNone
  | some kw =>
    let lhs ← allocIn .group d
    emit kw lhs
    let co ← read fun s => (until_ .colon s.rest).isSome
    if !co then parserFail else
    when (decide (kw.ty = .kCase)) (lay_ .line lhs)
    let x ← if kw.ty = .kCase then X.R.expr { dc := lhs } else pure (.good, some lhs)
    if x.1 ≠ .good then parserFail else
    let c ← expect .colon
    match c with
    | none => parserFail
    | some c =>
      emit c lhs
      let lb ← peekIf .lbrace
      when lb (lay_ .line lhs)
      let r ← if lb then X.R.stmt d else pure .good
      if r = .fail then parserFail else
      let i ← indentIn d
      loop X.n (caseRound X i kw) ()
      parserGood

/-- `parser_stmt_goto`, parser-stmt.c:738-754. -/
def stmtGoto (d : Id) : M Res := do
  let t ← lexIf (is .goto)
  match t with
  | none => parserNone
  | some t =>
    let c ← allocIn .group d
    emit t c
    lay_ .line c
    expectEmit .ident c
    parserSemi c

/-- `parser_stmt_switch` and `parser_stmt_while`, parser-stmt.c:756-774. -/
def stmtKw (X : Cx) (ty : TT) (d : Id) : M Res := do
  let p ← peekIf ty
  if !p then parserNone else
  kwExpr X d ty {}

/-- `parser_stmt_break` and `parser_stmt_continue`, parser-stmt.c:776-802. -/
def stmtWord (ty : TT) (d : Id) : M Res := do
  let p ← peekIf ty
  if !p then parserNone else
  expectEmit ty d
  parserSemi d

/-- `parser_stmt_return`, parser-stmt.c:804-831. -/
def stmtReturn (X : Cx) (d : Id) : M Res := do
  let t ← lexIf (is .kReturn)
  match t with
  | none => parserNone
  | some t =>
    let c ← allocIn .group d
    emit t c
    let se ← peekIf .semi
    if se then parserSemi c
    else
      lay_ .blank c
      let x ← X.R.expr { dc := c }
      match x with
      | (.good, some e) => parserSemi e
      | _ => parserFail

/-- `parser_stmt_semi`, parser-stmt.c:833-841. -/
def stmtSemi (d : Id) : M Res := do
  let p ← peekIf .semi
  if !p then parserNone else
  parserSemi d

/-- `parser_stmt_cpp`, parser-stmt.c:846-863. -/
def stmtCpp (X : Cx) (d : Id) : M Res := do
  let p ← read fun s => stmtCppPeek s.rest
  if !p then parserNone else
  kwExpr X d .ident {}

/-- Move over tokens. -/
def skip (r : List Tok) : M Unit := fun s =>
  let k := s.rest.length - r.length
  some ((), { s with done := (s.rest.take k).reverse ++ s.done, rest := s.rest.drop k })

/-- `is_loop_stmt`, parser-stmt-expr.c:13-30, and `parser_stmt_peek`, parser-stmt.c:54-68. -/
def isLoopStmt (X : Cx) (semi : Nat) : M Bool := do
  let p ← read fun s =>
    match (pIf (is .ident) s.rest).bind parens with
    | some (rp, r) =>
      let nx := r.head?.getD eofTok
      if nx.id ≠ semi ∧ lineBefore rp nx then some r else none
    | none => none
  match p with
  | none => return false
  | some r =>
    peeking do
      skip r
      let x ← withRoot fun d => X.R.stmt d
      return decide (x.1 = .good)

/-- `parser_stmt_expr`, parser-stmt-expr.c:32-63. -/
def stmtExpr (X : Cx) (d : Id) : M Res := do
  let ty ← read fun s => (typePeek {} s.done.head? s.rest).isSome
  if ty then parserNone else
  let p ← exprPeek X
  match p with
  | none => parserNone
  | some nx =>
    if nx.ty ≠ .semi then parserNone else
    let l ← isLoopStmt X nx.id
    if l then parserNone else
    let x ← X.R.expr { dc := d }
    match x with
    | (.good, some e) => parserSemi e
    | _ => parserFail

/-- Alternatives, tried until one is good. -/
def alts : List (M Res) → M Res
  | [] => parserNone
  | m :: ms => do
    let r ← m
    if r = .good then parserGood else alts ms

/-- `parser_stmt` and `parser_stmt1`, parser-stmt.c:70-131. -/
def stmtF (X : Cx) (d : Id) : M Res :=
  alts [
    X.R.block d d { trim := true } >>= fun x => pure x.1,
    stmtExpr X d,
    stmtIf X d,
    stmtReturn X d,
    X.R.decl d { brk := true, trimSemi := true },
    stmtCase X d,
    stmtWord .kBreak d,
    stmtGoto d,
    stmtFor X d,
    stmtKw X .kWhile d,
    stmtLabel X d,
    stmtKw X .switch d,
    stmtWord .kContinue d,
    stmtAsm X d,
    stmtDowhile X d,
    stmtSemi d,
    stmtCpp X d]

/-! ## parser-extern.c and parser.c -/

/-- One round of the loop of `parser_extern`, parser-extern.c:36-48. -/
def externRound (X : Cx) (d : Id) (rbrace : Nat) (_ : Unit) : M (Unit ⊕ Res) := do
  let nx ← peek
  if nx.id = rbrace then return .inr .good
  let r ← X.R.root d
  match r with
  | .non => return .inr .good
  | .fail => return .inr .fail
  | .good => return .inl ()

/-- `parser_extern`, parser-extern.c:10-55. -/
def extern_ (X : Cx) (d : Id) : M Res := do
  let p ← read fun s => externPeek s.rest
  match p with
  | none => parserNone
  | some rb =>
    expectEmit .kExtern d
    lay_ .blank d
    expectEmit .string d
    lay_ .blank d
    expectEmit .lbrace d
    lay_ .hardline d
    let r ← loop X.n (externRound X d rb.id) ()
    if r ≠ .good then return r
    expectEmit .rbrace d
    ifEmit .semi d
    lay_ .hardline d
    parserGood

/-- `parser_root`, parser.c:197-215. -/
def rootF (X : Cx) (d : Id) : M Res := do
  let r ← X.R.decl d { brk := true, line := true, root := true, trimSemi := true }
  if r ≠ .non then return r
  let r ← funcImpl X d
  if r ≠ .non then return r
  let r ← extern_ X d
  if r ≠ .non then return r
  let r ← rootAsm X d
  if r ≠ .non then return r
  parserFail

/-- Ties the knot: functions that may recurse `n` times. -/
def recs (E : Env) : Nat → Rec
  | 0 =>
    { expr := fun _ _ => none, type := fun _ _ _ => none, braces := fun _ _ _ => none
      block := fun _ _ _ _ => none, stmt := fun _ _ => none, decl := fun _ _ _ => none
      root := fun _ _ => none }
  | n + 1 =>
    let X : Cx := { E := E, R := recs E n, n := n }
    { expr := exprF X, type := typeF X, braces := bracesF X, block := blockF X, stmt := stmtF X
      decl := declF X, root := rootF X }

/-- The loop of `parser_exec`, parser.c:138-169, as long as all goes well. The result tells whether
the end of the file was reached without an error. What happens upon an error, `clang_recover`, is not
part of this model. -/
def execRound (R : Rec) (d : Id) (_ : Unit) : M (Unit ⊕ Bool) := do
  let nx ← peek
  if nx.ty = .eof then return .inr true
  let c ← alloc .concat d
  let r ← R.root c
  if r = .good then return .inl ()
  return .inr false

/-- `parser_exec` up to `doc_exec`, parser.c:123-174: the tokens of the document, and what has gone
wrong unnoticed. `none` if the parser reports an error, or if the fuel is not sufficient. -/
def parserExec (E : Env) (fuel : Nat) (ts : List Tok) : Option (List Tok × Ghost) :=
  let s : St := { done := [], rest := ts, L := [.opn 0 .root, .cls 0], next := 1 }
  match loop fuel (execRound (recs E fuel) 0) () s with
  | some (true, s') => some (toks s'.L, s'.gh)
  | _ => none

end Knfmt.Parse
