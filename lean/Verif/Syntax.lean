import Verif.Types
/-
Model of `/repo/spec/lang/syntax.md`: the abstract syntax of MiniRust programs.
-/
namespace MiniRust

/-- `/repo/spec/lang/syntax.md:472` -/
abbrev LocalName := Nat
/-- `/repo/spec/lang/syntax.md:473` -/
abbrev BbName := Nat

/-- `Relocation`, `/repo/spec/lang/syntax.md:525-530`. -/
structure Relocation where
  name : GlobalName
  offset : Nat
  deriving DecidableEq, Repr

/-- `Constant`, `/repo/spec/lang/syntax.md:82-95`. -/
inductive Constant
  | int (i : Int)
  | bool (b : Bool)
  | globalPointer (r : Relocation)
  | fnPointer (f : FnName)
  | vtablePointer (v : VTableName)
  | pointerWithoutProvenance (addr : Int)
  deriving DecidableEq, Repr

/-- `IntUnOp`, `/repo/spec/lang/syntax.md:97-104`. -/
inductive IntUnOp
  | neg | bitNot | countOnes
  deriving DecidableEq, Repr

/-- `CastOp`, `/repo/spec/lang/syntax.md:105-112`. -/
inductive CastOp
  | intToInt (ity : IntType)
  | transmute (ty : Ty)
  deriving DecidableEq, Repr

/-- `UnOp`, `/repo/spec/lang/syntax.md:113-134`. -/
inductive UnOp
  | int (op : IntUnOp)
  | cast (op : CastOp)
  | getThinPointer
  | getMetadata
  | computeSize (ty : Ty)
  | computeAlign (ty : Ty)
  | vtableMethodLookup (m : TraitMethodName)
  deriving DecidableEq, Repr

/-- `IntBinOp`, `/repo/spec/lang/syntax.md:136-177`. -/
inductive IntBinOp
  | add | addUnchecked | sub | subUnchecked | mul | mulUnchecked
  | div | divExact | rem | shl | shlUnchecked | shr | shrUnchecked
  | bitAnd | bitOr | bitXor
  deriving DecidableEq, Repr

/-- `IntBinOpWithOverflow`, `/repo/spec/lang/syntax.md:178-188`. -/
inductive IntBinOpWithOverflow
  | add | sub | mul
  deriving DecidableEq, Repr

/-- `RelOp`, `/repo/spec/lang/syntax.md:191-209`. -/
inductive RelOp
  | lt | gt | le | ge | eq | ne | cmp
  deriving DecidableEq, Repr

/-- `BinOp`, `/repo/spec/lang/syntax.md:211-235`. -/
inductive BinOp
  | int (op : IntBinOp)
  | intWithOverflow (op : IntBinOpWithOverflow)
  | rel (op : RelOp)
  | ptrOffset (inbounds : Bool)
  | ptrOffsetFrom (inbounds nonneg : Bool)
  | constructWidePointer (ty : PtrType)
  deriving DecidableEq, Repr

mutual
/-- `ValueExpr`, `/repo/spec/lang/syntax.md:17-78`. -/
inductive ValueExpr
  | constant (c : Constant) (ty : Ty)
  | tuple (exprs : List ValueExpr) (ty : Ty)
  | union (field : Int) (expr : ValueExpr) (unionTy : Ty)
  | variant (discriminant : Int) (data : ValueExpr) (enumTy : Ty)
  | getDiscriminant (place : PlaceExpr)
  | load (source : PlaceExpr)
  | addrOf (target : PlaceExpr) (ptrTy : PtrType)
  | unOp (op : UnOp) (operand : ValueExpr)
  | binOp (op : BinOp) (left right : ValueExpr)
/-- `PlaceExpr`, `/repo/spec/lang/syntax.md:242-277`. -/
inductive PlaceExpr
  | local (l : LocalName)
  | deref (operand : ValueExpr) (ty : Ty)
  | field (root : PlaceExpr) (field : Int)
  | index (root : PlaceExpr) (index : ValueExpr)
  | downcast (root : PlaceExpr) (discriminant : Int)
end

/-- `Statement`, `/repo/spec/lang/syntax.md:285-318`. -/
inductive Statement
  | assign (destination : PlaceExpr) (source : ValueExpr)
  | placeMention (place : PlaceExpr)
  | setDiscriminant (destination : PlaceExpr) (value : Int)
  | validate (place : PlaceExpr) (fnEntry : Bool)
  | deinit (place : PlaceExpr)
  | storageLive (l : LocalName)
  | storageDead (l : LocalName)

/-- `ArgumentExpr`, `/repo/spec/lang/syntax.md:388-396`. -/
inductive ArgumentExpr
  | byValue (v : ValueExpr)
  | inPlace (p : PlaceExpr)

/-- `CallingConvention`, `/repo/spec/lang/syntax.md:402-404`. -/
inductive CallingConvention
  | rust | c
  deriving DecidableEq, Repr

/-- `IntrinsicLockOp`, `/repo/spec/lang/syntax.md:406-410`. -/
inductive IntrinsicLockOp
  | acquire | release | create
  deriving DecidableEq, Repr

/-- `IntrinsicOp`, `/repo/spec/lang/syntax.md:417-442`. -/
inductive IntrinsicOp
  | abort | assume | exit | printStdout | printStderr | allocate | deallocate
  | spawn | join | rawEq | atomicStore | atomicLoad | atomicCompareExchange
  | atomicFetchAndOp (op : IntBinOp)
  | lock (op : IntrinsicLockOp)
  | pointerExposeProvenance | pointerWithExposedProvenance | getUnwindPayload
  deriving DecidableEq, Repr

/-- `Terminator`, `/repo/spec/lang/syntax.md:320-385`. -/
inductive Terminator
  | goto (b : BbName)
  | switch (value : ValueExpr) (cases : Map Int BbName) (fallback : BbName)
  | unreachable
  | intrinsic (op : IntrinsicOp) (arguments : List ValueExpr) (ret : PlaceExpr)
      (nextBlock : Option BbName)
  | call (callee : ValueExpr) (callingConvention : CallingConvention)
      (arguments : List ArgumentExpr) (ret : PlaceExpr)
      (nextBlock : Option BbName) (unwindBlock : Option BbName)
  | return
  | startUnwind (payload : ValueExpr) (unwindBlock : BbName)
  | stopUnwind (b : BbName)
  | resumeUnwind

/-- `BbKind`, `/repo/spec/lang/syntax.md:500-510`. -/
inductive BbKind
  | regular | cleanup | catch | terminate
  deriving DecidableEq, Repr

/-- `BasicBlock`, `/repo/spec/lang/syntax.md:493-497`. -/
structure BasicBlock where
  statements : List Statement
  terminator : Terminator
  kind : BbKind

/-- `Function`, `/repo/spec/lang/syntax.md:476-490`. -/
structure Function where
  locals : Map LocalName Ty
  args : List LocalName
  ret : LocalName
  callingConvention : CallingConvention
  blocks : Map BbName BasicBlock
  start : BbName

/-- `Global`, `/repo/spec/lang/syntax.md:513-522`. -/
structure Global where
  bytes : List (Option UInt8)
  relocations : List (Nat × Relocation)
  align : Align
  deriving DecidableEq, Repr

/-- `Program`, `/repo/spec/lang/syntax.md:458-469`. -/
structure Program where
  functions : Map FnName Function
  start : FnName
  globals : Map GlobalName Global
  traits : Map TraitName (List TraitMethodName)
  vtables : Map VTableName VTable

end MiniRust
