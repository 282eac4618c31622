import Verif.Pretty
import Verif.WellFormed
/-
What the pretty printer should print. Composite types have names, which are given by a list `names` of types: the name of the type at position `i` is `Ti`.
-/
namespace MiniRust

/-- Tuples, unions and enums are composite. -/
def Ty.Composite : Ty → Prop
  | .tuple .. | .union .. | .enum .. => True
  | _ => False

/-- The composite types whose names occur in the text of a type. -/
def Ty.mentions : Ty → List Ty
  | .tuple f h u => [.tuple f h u]
  | .union f c s a => [.union f c s a]
  | .enum v t d s a => [.enum v t d s a]
  | .array elem _ => elem.mentions
  | .slice elem => elem.mentions
  | _ => []

/-- The types that the definition of a composite type refers to: the fields, the last, unsized field, and the variants. -/
def Ty.components : Ty → List Ty
  | .tuple fields _ tail => fields.map Prod.snd ++ tail.toList
  | .union fields _ _ _ => fields.map Prod.snd
  | .enum variants _ _ _ _ => variants.map fun v => v.2.1
  | _ => []

/-! ### Texts of types -/

/-- For example `i32`: the sign and the number of bits. -/
def IntType.text (i : IntType) : Text := (if i.signed = .signed then lit "i" else lit "u") ++ natText (8 * i.size)

/-- The kind of metadata of a pointer. -/
def MetaKind.text : MetaKind → Text
  | .none => lit "thin"
  | .elementCount => lit "meta=len"
  | .vtablePointer t => lit "meta=vtable<trait" ++ natText t ++ lit ">"

/-- Size and alignment. -/
def LayoutStrategy.text : LayoutStrategy → Text
  | .sized size align => lit "size=" ++ natText size ++ lit ", align=" ++ natText align.bytes
  | .slice size align => lit "size=" ++ natText size ++ lit "*len, align=" ++ natText align.bytes
  | .traitObject _ => lit "size,align={unknown}"
  | .tuple head tail =>
    lit "head=(end=" ++ natText head.end ++ lit ", align=" ++ natText head.align.bytes ++ lit ")" ++
      head.packedAlign.elim [] (fun p => lit ", packed=" ++ natText p.bytes) ++ lit ", tail=(" ++ tail.text ++ lit ")"

/-- What is known about what a pointer points to. -/
def PointeeInfo.text (p : PointeeInfo) : Text :=
  lit "pointee_info(" ++ p.layout.metaKind.text ++ lit ", " ++ p.layout.text ++
    ([(p.inhabited, lit ", uninhabited"), (p.freeze, lit ", !Freeze"), (p.unpin, lit ", !Unpin")].flatMap fun x => if x.1 then [] else x.2) ++ lit ")"

def PtrType.text : PtrType → Text
  | .ref .mut pointee => lit "&mut " ++ pointee.text
  | .ref .imm pointee => lit "&" ++ pointee.text
  | .box pointee => lit "Box<" ++ pointee.text ++ lit ">"
  | .raw metaKind => lit "*raw(" ++ metaKind.text ++ lit ")"
  | .fnPtr => lit "fn()"
  | .vtablePtr _ => lit "{vtable}"

/-- The text of a type. -/
def Ty.text (names : List Ty) : Ty → Text
  | .int i => i.text
  | .ptr p => p.text
  | .bool => lit "bool"
  | .array elem count => lit "[" ++ elem.text names ++ lit "; " ++ intText count ++ lit "]"
  | .slice elem => lit "[" ++ elem.text names ++ lit "]"
  | .traitObject t => lit "dyn trait" ++ natText t
  | t => lit "T" ++ natText (names.idxOf t)

/-- The types that occur in the text of an operator. -/
def UnOp.mentions : UnOp → List Ty
  | .cast (.transmute ty) => ty.mentions
  | .computeSize ty => ty.mentions
  | .computeAlign ty => ty.mentions
  | _ => []

mutual
/-- The types that occur in the text of an expression. -/
def ValueExpr.mentions : ValueExpr → List Ty
  | .constant .. => []
  | .tuple es _ => ValueExpr.mentionsL es
  | .union _ e t => t.mentions ++ e.mentions
  | .variant _ e t => t.mentions ++ e.mentions
  | .getDiscriminant p => p.mentions
  | .load p => p.mentions
  | .addrOf p _ => p.mentions
  | .unOp op e => e.mentions ++ op.mentions
  | .binOp _ l r => l.mentions ++ r.mentions
def ValueExpr.mentionsL : List ValueExpr → List Ty
  | [] => []
  | e :: es => e.mentions ++ ValueExpr.mentionsL es
def PlaceExpr.mentions : PlaceExpr → List Ty
  | .local _ => []
  | .deref e t => t.mentions ++ e.mentions
  | .field p _ => p.mentions
  | .index p e => p.mentions ++ e.mentions
  | .downcast p _ => p.mentions
end

def Statement.mentions : Statement → List Ty
  | .assign p e => p.mentions ++ e.mentions
  | .placeMention p => p.mentions
  | .setDiscriminant p _ => p.mentions
  | .validate p _ => p.mentions
  | .deinit p => p.mentions
  | .storageLive _ => []
  | .storageDead _ => []

def ArgumentExpr.mentions : ArgumentExpr → List Ty
  | .byValue e => e.mentions
  | .inPlace p => p.mentions

def Terminator.mentions : Terminator → List Ty
  | .switch e _ _ => e.mentions
  | .call callee _ args ret _ _ => callee.mentions ++ args.flatMap ArgumentExpr.mentions ++ ret.mentions
  | .intrinsic _ args ret _ => ValueExpr.mentionsL args ++ ret.mentions
  | .startUnwind e _ => e.mentions
  | _ => []

def BasicBlock.mentions (b : BasicBlock) : List Ty := b.statements.flatMap Statement.mentions ++ b.terminator.mentions

def Function.mentions (f : Function) : List Ty :=
  ((sortByName f.locals).flatMap fun l => l.2.mentions) ++ (sortByName f.blocks).flatMap fun b => b.2.mentions

def Program.mentions (prog : Program) : List Ty := (sortByName prog.functions).flatMap fun f => f.2.mentions

/-- The composite types that occur in a program, in functions or in definitions of composite types that occur. -/
inductive Program.Uses (prog : Program) : Ty → Prop
  | mention {t} : t ∈ prog.mentions → Program.Uses prog t
  | component {t c u} : Program.Uses prog t → c ∈ t.components → u ∈ c.mentions → Program.Uses prog u

/-! ### What can be printed -/

/-- Only references and raw pointers are made by taking addresses. -/
def PtrType.Addr : PtrType → Prop
  | .ref .. => True
  | .raw _ => True
  | _ => False

mutual
/-- Tuple expressions have the type of a tuple or array, and only references and raw pointers are made by taking addresses. -/
def ValueExpr.Printable : ValueExpr → Prop
  | .constant .. => True
  | .tuple es t => (match t with | .array .. => True | .tuple .. => True | _ => False) ∧ ValueExpr.PrintableL es
  | .union _ e _ => e.Printable
  | .variant _ e _ => e.Printable
  | .getDiscriminant p => p.Printable
  | .load p => p.Printable
  | .addrOf p t => t.Addr ∧ p.Printable
  | .unOp _ e => e.Printable
  | .binOp _ l r => l.Printable ∧ r.Printable
def ValueExpr.PrintableL : List ValueExpr → Prop
  | [] => True
  | e :: es => e.Printable ∧ ValueExpr.PrintableL es
def PlaceExpr.Printable : PlaceExpr → Prop
  | .local _ => True
  | .deref e _ => e.Printable
  | .field p _ => p.Printable
  | .index p e => p.Printable ∧ e.Printable
  | .downcast p _ => p.Printable
end

def Statement.Printable : Statement → Prop
  | .assign p e => p.Printable ∧ e.Printable
  | .placeMention p => p.Printable
  | .setDiscriminant p _ => p.Printable
  | .validate p _ => p.Printable
  | .deinit p => p.Printable
  | _ => True

def ArgumentExpr.Printable : ArgumentExpr → Prop
  | .byValue e => e.Printable
  | .inPlace p => p.Printable

def Terminator.Printable : Terminator → Prop
  | .switch e _ _ => e.Printable
  | .call callee _ args ret _ _ => callee.Printable ∧ (∀ a ∈ args, a.Printable) ∧ ret.Printable
  | .intrinsic _ args ret _ => ValueExpr.PrintableL args ∧ ret.Printable
  | .startUnwind e _ => e.Printable
  | _ => True

/-- All expressions are printable. -/
def Program.Printable (prog : Program) : Prop :=
  ∀ f ∈ prog.functions, ∀ b ∈ f.2.blocks, (∀ st ∈ b.2.statements, st.Printable) ∧ b.2.terminator.Printable

/-! ### Which well-formed programs can be printed -/

mutual
/-- The property holds of the value expression and all value expressions inside it. -/
def ValueExpr.Each (P : ValueExpr → Prop) : ValueExpr → Prop
  | .constant c t => P (.constant c t)
  | .tuple es t => P (.tuple es t) ∧ ValueExpr.EachL P es
  | .union i e t => P (.union i e t) ∧ e.Each P
  | .variant d e t => P (.variant d e t) ∧ e.Each P
  | .getDiscriminant p => P (.getDiscriminant p) ∧ p.Each P
  | .load p => P (.load p) ∧ p.Each P
  | .addrOf p t => P (.addrOf p t) ∧ p.Each P
  | .unOp op e => P (.unOp op e) ∧ e.Each P
  | .binOp op l r => P (.binOp op l r) ∧ l.Each P ∧ r.Each P
def ValueExpr.EachL (P : ValueExpr → Prop) : List ValueExpr → Prop
  | [] => True
  | e :: es => e.Each P ∧ ValueExpr.EachL P es
def PlaceExpr.Each (P : ValueExpr → Prop) : PlaceExpr → Prop
  | .local _ => True
  | .deref e _ => e.Each P
  | .field p _ => p.Each P
  | .index p e => p.Each P ∧ e.Each P
  | .downcast p _ => p.Each P
end

def Statement.Each (P : ValueExpr → Prop) : Statement → Prop
  | .assign p e => p.Each P ∧ e.Each P
  | .placeMention p => p.Each P
  | .setDiscriminant p _ => p.Each P
  | .validate p _ => p.Each P
  | .deinit p => p.Each P
  | _ => True

def ArgumentExpr.Each (P : ValueExpr → Prop) : ArgumentExpr → Prop
  | .byValue e => e.Each P
  | .inPlace p => p.Each P

def Terminator.Each (P : ValueExpr → Prop) : Terminator → Prop
  | .switch e _ _ => e.Each P
  | .call callee _ args ret _ _ => callee.Each P ∧ (∀ a ∈ args, a.Each P) ∧ ret.Each P
  | .intrinsic _ args ret _ => ValueExpr.EachL P args ∧ ret.Each P
  | .startUnwind e _ => e.Each P
  | _ => True

/-- The property holds of all value expressions of the program. -/
def Program.Each (P : ValueExpr → Prop) (prog : Program) : Prop :=
  ∀ f ∈ prog.functions, ∀ b ∈ f.2.blocks, (∀ st ∈ b.2.statements, st.Each P) ∧ b.2.terminator.Each P

/-- The two things that well-formedness does not rule out and that the printer cannot print: taking an address as something other than a reference or a
raw pointer, and a transmutation to a type that is not well-formed. -/
def ValueExpr.Usual [Target] (prog : Program) : ValueExpr → Prop
  | .addrOf _ t => t.Addr
  | .unOp (.cast (.transmute t)) _ => t.checkWf prog = .ok ()
  | _ => True

/-! ### Texts -/

/-- An expression in a place where it could be ambiguous. -/
def parens (needed : Bool) (t : Text) : Text := if needed then lit "(" ++ t ++ lit ")" else t

/-- Does the text of the place need parentheses where it could be ambiguous? -/
def PlaceExpr.loose : PlaceExpr → Bool
  | .downcast .. => true
  | _ => false

/-- Does the text of the expression need parentheses where it could be ambiguous? -/
def ValueExpr.loose : ValueExpr → Bool
  | .constant (.globalPointer r) _ => r.offset ≠ 0
  | .union .. => true
  | .variant .. => true
  | .addrOf .. => true
  | .unOp (.int _) _ => true
  | .unOp (.vtableMethodLookup _) _ => true
  | .binOp (.int op) _ _ => (fmtIntBinOp op).isLeft
  | .binOp (.rel _) _ _ => true
  | _ => false

/-- The part of the text of an operator before its operand, and the part after it. -/
def UnOp.around (names : List Ty) : UnOp → Text × Text
  | .int .neg => (lit "-(", lit ")")
  | .int .bitNot => (lit "!(", [])
  | .int .countOnes => (lit "count_ones(", [])
  | .cast (.intToInt ity) => (lit "int2int<" ++ ity.text ++ lit ">(", lit ")")
  | .cast (.transmute ty) => (lit "transmute<" ++ ty.text names ++ lit ">(", lit ")")
  | .getThinPointer => (lit "get_thin_ptr(", lit ")")
  | .getMetadata => (lit "get_metadata(", lit ")")
  | .computeSize ty => (lit "compute_size<" ++ ty.text names ++ lit ">(", lit ")")
  | .computeAlign ty => (lit "compute_align<" ++ ty.text names ++ lit ">(", lit ")")
  | .vtableMethodLookup m => (lit "vtable_lookup<m" ++ natText m ++ lit ">(", lit ")")

/-- The text of a constant. -/
def Constant.text : Constant → Text
  | .int i => intText i
  | .bool b => if b then lit "true" else lit "false"
  | .globalPointer r => lit "global(" ++ natText r.name ++ lit ")" ++ if r.offset = 0 then [] else lit " + " ++ natText r.offset
  | .fnPointer f => lit "f" ++ natText f
  | .vtablePointer v => lit "vtable" ++ natText v
  | .pointerWithoutProvenance addr => if addr = 0 then lit "nullptr" else lit "invalid_ptr(" ++ intText addr ++ lit ")"

/-- How a binary operator is written: between its operands, or before them, and then with or without parentheses around operands that could
be ambiguous. -/
inductive Notation
  | infix (op : Text)
  | prefix (name : Text) (strict : Bool)

def BinOp.written : BinOp → Notation
  | .int op => match fmtIntBinOp op with
    | .inl op => .infix op
    | .inr name => .prefix name true
  | .intWithOverflow op => .prefix (fmtOverflowOp op ++ lit "WithOverflow") true
  | .rel op => .infix (fmtRelOp op)
  | .ptrOffset inbounds => .prefix (if inbounds then lit "offset_inbounds" else lit "offset_wrapping") false
  | .ptrOffsetFrom inbounds nonneg =>
    .prefix (lit "offset_from_" ++ (if inbounds then lit "inbounds" else lit "wrapping") ++ if nonneg then lit "_nonneg" else []) false
  | .constructWidePointer ptrTy => .prefix (lit "construct_ptr<" ++ ptrTy.text ++ lit ">") false

mutual
/-- The text of a value expression. -/
def ValueExpr.text (names : List Ty) : ValueExpr → Text
  | .constant c _ => c.text
  | .tuple es t => match t with
    | .array .. => lit "[" ++ joinText (lit ", ") (ValueExpr.texts names es) ++ lit "]"
    | _ => lit "(" ++ joinText (lit ", ") (ValueExpr.texts names es) ++ lit ")"
  | .union field e t => t.text names ++ lit " { field" ++ intText field ++ lit ": " ++ e.text names ++ lit " }"
  | .variant d e t => t.text names ++ lit "(variant " ++ intText d ++ lit "): " ++ e.text names
  | .getDiscriminant p => lit "discriminant(" ++ p.text names ++ lit ")"
  | .load p => lit "load(" ++ p.text names ++ lit ")"
  | .addrOf p t => (match t with | .raw _ => lit "&raw " | .ref .mut _ => lit "&mut " | _ => lit "&") ++ parens p.loose (p.text names)
  | .unOp op e => (op.around names).1 ++ e.text names ++ (op.around names).2
  | .binOp op l r => match op.written with
    | .infix op => parens l.loose (l.text names) ++ lit " " ++ op ++ lit " " ++ parens r.loose (r.text names)
    | .prefix name true => name ++ lit "(" ++ parens l.loose (l.text names) ++ lit ", " ++ parens r.loose (r.text names) ++ lit ")"
    | .prefix name false => name ++ lit "(" ++ l.text names ++ lit ", " ++ r.text names ++ lit ")"
def ValueExpr.texts (names : List Ty) : List ValueExpr → List Text
  | [] => []
  | e :: es => e.text names :: ValueExpr.texts names es
/-- The text of a place expression. -/
def PlaceExpr.text (names : List Ty) : PlaceExpr → Text
  | .local l => lit "_" ++ natText l
  | .deref e t => lit "deref<" ++ t.text names ++ lit ">(" ++ e.text names ++ lit ")"
  | .field p i => parens p.loose (p.text names) ++ lit "." ++ intText i
  | .index p e => parens p.loose (p.text names) ++ lit "[" ++ e.text names ++ lit "]"
  | .downcast p d => parens p.loose (p.text names) ++ lit " as variant " ++ intText d
end

/-- The text of a statement. -/
def Statement.text (names : List Ty) : Statement → Text
  | .assign p e => lit "    " ++ p.text names ++ lit " = " ++ e.text names ++ lit ";"
  | .placeMention p => lit "    _ = " ++ p.text names ++ lit ";"
  | .setDiscriminant p d => lit "    discriminant(" ++ p.text names ++ lit ") = " ++ intText d ++ lit ";"
  | .validate p fnEntry => lit "    validate(" ++ p.text names ++ lit ", " ++ (if fnEntry then lit "true" else lit "false") ++ lit ");"
  | .deinit p => lit "    deinit(" ++ p.text names ++ lit ");"
  | .storageLive l => lit "    storage_live(_" ++ natText l ++ lit ");"
  | .storageDead l => lit "    storage_dead(_" ++ natText l ++ lit ");"

def ArgumentExpr.text (names : List Ty) : ArgumentExpr → Text
  | .byValue e => lit "by-value(" ++ e.text names ++ lit ")"
  | .inPlace p => lit "in-place(" ++ p.text names ++ lit ")"

/-- The text of a call of a function or an intrinsic. -/
def callText (ret callee : Text) (args : List Text) (next unwind : Option BbName) : Text :=
  lit "    " ++ ret ++ lit " = " ++ callee ++ lit "(" ++ joinText (lit ", ") args ++ lit ")" ++
    (match next, unwind with
      | some n, some u => lit " -> [return: bb" ++ natText n ++ lit ", unwind: bb" ++ natText u ++ lit "]"
      | some n, none => lit " -> return: bb" ++ natText n
      | none, some u => lit " -> unwind: bb" ++ natText u
      | none, none => []) ++ lit ";"

/-- The text of a terminator. -/
def Terminator.text (names : List Ty) : Terminator → Text
  | .goto b => lit "    goto -> bb" ++ natText b ++ lit ";"
  | .switch e cases fallback => lit "    switch(" ++ e.text names ++ lit ") -> [\n      " ++
      (cases.flatMap fun c => intText c.1 ++ lit ": bb" ++ natText c.2 ++ lit ",\n      ") ++ lit "otherwise: bb" ++ natText fallback ++ lit "\n    ];"
  | .unreachable => lit "    unreachable;"
  | .call callee conv args ret next unwind => callText (ret.text names)
      ((match conv with | .rust => [] | .c => lit "extern \"C\"") ++ parens callee.loose (callee.text names)) (args.map (ArgumentExpr.text names)) next unwind
  | .return => lit "    return;"
  | .startUnwind e b => lit "    start unwind(" ++ e.text names ++ lit ") -> unwind: bb" ++ natText b ++ lit " "
  | .stopUnwind b => lit "    start unwind -> unwind: bb" ++ natText b ++ lit " "
  | .resumeUnwind => lit "    resume"
  | .intrinsic op args ret next => callText (ret.text names) (fmtIntrinsic op) (ValueExpr.texts names args) next none

/-- The text of a basic block. -/
def BasicBlock.text (names : List Ty) (start : Bool) (name : BbName) (b : BasicBlock) : Text :=
  (if start then lit "  start bb" else lit "  bb") ++ natText name ++ fmtBbKind b.kind ++ lit ":\n" ++
    (b.statements.flatMap fun st => st.text names ++ lit "\n") ++ b.terminator.text names ++ lit "\n"

/-- The text of a function. -/
def Function.text (names : List Ty) (start : Bool) (name : FnName) (f : Function) : Text :=
  (if start then lit "start fn f" else lit "fn f") ++ natText name ++ lit "(" ++ joinText (lit ", ") (f.args.map fun l => lit "_" ++ natText l) ++
    lit ") -> _" ++ natText f.ret ++ lit " {\n" ++
    ((sortByName f.locals).flatMap fun l => lit "  let _" ++ natText l.1 ++ lit ": " ++ l.2.text names ++ lit ";\n") ++
    ((sortByName f.blocks).flatMap fun b => b.2.text names (f.start = b.1) b.1) ++ lit "}\n\n"

/-- The text of the definition of a composite type with a given layout. -/
def Ty.defText (names : List Ty) (layout : LayoutStrategy) (t : Ty) : Text :=
  (match t with | .tuple .. => lit "tuple " | .union .. => lit "union " | _ => lit "enum ") ++ t.text names ++
    lit " (" ++ layout.text ++ lit ") {\n" ++
    (match t with
      | .tuple fields _ tail =>
        (fields.flatMap fun f => lit "  at byte " ++ natText f.1 ++ lit ": " ++ f.2.text names ++ lit ",\n") ++
          tail.elim [] fun u => lit "  tail: " ++ u.text names ++ lit ",\n"
      | .union fields chunks _ _ =>
        (fields.flatMap fun f => lit "  at byte " ++ natText f.1 ++ lit ": " ++ f.2.text names ++ lit ",\n") ++
          chunks.flatMap fun c => lit "  chunk(at=" ++ natText c.1 ++ lit ", size=" ++ natText c.2 ++ lit "),\n"
      | .enum variants d _ _ _ =>
        lit "  Discriminant: " ++ d.text ++ lit "\n" ++
          variants.flatMap fun v => lit "  Variant " ++ intText v.1 ++ lit ": " ++ v.2.1.text names ++ lit "\n"
      | _ => []) ++ lit "}\n\n"

/-- The text of a byte of a global: two hexadecimal digits, or `__`. -/
def byteText : Option UInt8 → Text
  | none => lit "__"
  | some b => (Nat.toDigits 16 (b.toNat + 256)).tail

/-- The text of a global. -/
def Global.text (name : GlobalName) (g : Global) : Text :=
  lit "global(" ++ natText name ++ lit ") {\n  bytes = [" ++ joinText (lit " ") (g.bytes.map byteText) ++ lit "],\n  align = " ++ natText g.align.bytes ++
    lit " bytes,\n" ++ (g.relocations.flatMap fun r => lit "  at byte " ++ natText r.1 ++ lit ": " ++ (Constant.globalPointer r.2).text ++ lit ",\n") ++
    lit "}\n\n"

/-- The text of a vtable. -/
def VTable.text (name : VTableName) (v : VTable) : Text :=
  lit "vtable" ++ natText name ++ lit " {\n  trait = trait" ++ natText v.traitName ++ lit ",\n  size = " ++ natText v.size ++ lit ",\n  align = " ++
    natText v.align.bytes ++ lit ",\n" ++ (v.methods.flatMap fun m => lit "  m" ++ natText m.1 ++ lit "() = f" ++ natText m.2 ++ lit ",\n") ++ lit "}\n"

/-- The text of a trait, given the texts of its methods in the order in which they are printed. -/
def traitText (name : TraitName) (methods : List Text) : Text :=
  lit "trait" ++ natText name ++ lit " { " ++ joinText (lit ", ") methods ++ lit " }\n"

end MiniRust
