import Verif.Spec.Disasm
import Verif.Proof.WasmTotal
/-! The formatter on S-expressions, and what the disassembler prints. -/
namespace Ab.Wasm
open Sexpr Spec Spec.Wasm Spec.Disasm

/-- What comes before the next thing written. -/
def lead (f : Formatter) : List Char :=
  if f.fresh then indentation f.depth else if f.needsSpacing then [' '] else []

mutual
/-- The events of an S-expression. -/
def putTree (f : Formatter) : Tree → Formatter
  | .atom s => f.text s
  | .list l => (putTrees f.start l).stop
def putTrees (f : Formatter) : List Tree → Formatter
  | [] => f
  | t :: l => putTrees (putTree f t) l
end

mutual
/-- The number of lists inside each other. -/
def height : Tree → Nat
  | .atom _ => 0
  | .list l => heights l + 1
def heights : List Tree → Nat
  | [] => 0
  | t :: l => max (height t) (heights l)
end

theorem text_eq (f : Formatter) (s : List Char) : f.text s = ⟨f.buffer ++ lead f ++ s, f.depth, false, true⟩ := by
  unfold Formatter.text Formatter.spacing lead
  simp only
  split
  · rfl
  · split <;> simp

theorem start_eq (f : Formatter) : f.start = ⟨f.buffer ++ lead f ++ ['('], inc f.depth, false, false⟩ := by
  unfold Formatter.start Formatter.spacing lead
  simp only
  split
  · rfl
  · split <;> simp

mutual
theorem putTree_eq (f : Formatter) (t : Tree) (h : f.depth + height t ≤ 10) :
    putTree f t = ⟨f.buffer ++ lead f ++ t.render, f.depth, false, true⟩ := by
  cases t with
  | atom s => rw [putTree, text_eq, Tree.render]
  | list l =>
    rw [height] at h
    have hi : inc f.depth = f.depth + 1 := by unfold inc; rw [if_pos (by omega)]
    rw [putTree, start_eq, hi, putTrees_eq _ _ _ l (by omega)]
    simp [Formatter.stop, Tree.render, dec]
theorem putTrees_eq (b : List Char) (d : Nat) (ns : Bool) (l : List Tree) (h : d + heights l ≤ 10) :
    putTrees ⟨b, d, false, ns⟩ l = ⟨b ++ (if ns then renderRest l else renderAll l), d, false, ns || !l.isEmpty⟩ := by
  cases l with
  | nil => cases ns <;> simp [putTrees, renderAll, renderRest]
  | cons t l =>
    rw [heights] at h
    rw [putTrees, putTree_eq _ t (by simp only; omega), putTrees_eq _ d true l (by omega)]
    cases ns <;> simp [lead, renderAll, renderRest]
end

theorem putTrees_append (f : Formatter) (a b : List Tree) : putTrees f (a ++ b) = putTrees (putTrees f a) b := by
  induction a generalizing f with
  | nil => rw [putTrees]; rfl
  | cons t a ih => rw [List.cons_append, putTrees, putTrees, ih]

theorem putTrees_map {g : α → Tree} {p : Formatter → α → Formatter} (h : ∀ f a, p f a = putTree f (g a)) (f : Formatter)
    (l : List α) : l.foldl p f = putTrees f (l.map g) := by
  induction l generalizing f with
  | nil => rw [List.map_nil, putTrees]; rfl
  | cons a l ih => rw [List.map_cons, putTrees, List.foldl_cons, ih, h]

theorem num_eq (f : Formatter) (n : Nat) : Formatter.num f n = putTree f (number asCharacter n) := by
  rw [number, asCharacter, putTree]
  rfl

theorem int_eq (f : Formatter) (n : U64) : Formatter.num f n.toNat = putTree f (number asCharacter n.toInt) := by
  rw [num_eq, number, number, asCharacter, asCharacter]
  have : BitVec.ofInt 8 n.toInt = BitVec.ofInt 8 (n.toNat : Int) := by
    apply BitVec.eq_of_toInt_eq
    rw [BitVec.toInt_ofInt, BitVec.toInt_ofInt]
    rw [BitVec.toInt_eq_toNat_bmod, Int.bmod_bmod_of_dvd (by decide)]
  rw [this]

theorem str_eq (f : Formatter) (s : String) : Formatter.str f s = putTree f (word s) := by
  rw [word, putTree]; rfl

theorem typeName_eq (t : Byte) : word (typeName t) = valueType t := by
  have : ∀ t : Byte, typeName t = (match t.toNat with
    | 0x7f => "i32"
    | 0x7e => "i64"
    | 0x7d => "f32"
    | 0x7c => "f64"
    | 0x70 => "anyfunc"
    | 0x60 => "func"
    | 0x40 => "empty"
    | _ => "UNKNOWN_TYPECODE") := by decide +kernel
  rw [valueType, this]
  rfl

theorem type_eq (f : Formatter) (t : Byte) : Formatter.str f (typeName t) = putTree f (valueType t) := by
  rw [str_eq, typeName_eq]

theorem kind_eq (f : Formatter) (k : Byte) : Formatter.str f (kindName k) = putTree f (kind k) := by
  have : ∀ k : Byte, kindName k = (match k.toNat with
    | 0 => "func"
    | 1 => "table"
    | 2 => "memory"
    | 3 => "global"
    | _ => "UNKNOWN_EXTERNAL_KIND_CODE") := by decide +kernel
  rw [str_eq, kind, this]
  rfl

theorem importKind_eq (t : ImportType) : ((kindCode t : Nat) : Int) = importKind t := by cases t <;> rfl

theorem putLimits_eq (f : Formatter) (l : Limits) : putLimits f l = putTrees f (limitsTrees asCharacter l) := by
  unfold putLimits limitsTrees
  cases l.hasMax <;> simp [putTrees, num_eq]

theorem putGlobalType_eq (f : Formatter) (g : GlobalType) : putGlobalType f g = putTree f (globalTypeTree g) := by
  unfold putGlobalType globalTypeTree
  cases g.isMutable <;> simp [putTree, putTrees, str_eq, typeName_eq]

theorem putFunctionType_eq (f : Formatter) (t : FunctionType) : putFunctionType f t = putTree f.freshen (funcTypeTree t) := by
  unfold putFunctionType funcTypeTree
  rw [putTree, putTrees_append, putTrees_append, putTrees, putTrees]
  simp only [str_eq, typeName_eq]
  rw [putTrees_map (g := valueType) (fun f a => rfl)]
  cases t.params with
  | nil => cases t.hasReturn <;> simp [putTree, putTrees]
  | cons a l => cases t.hasReturn <;> simp [putTree, putTrees]

theorem name_eq (f : Formatter) (s : List Byte) : f.text (stringify (s.map chr)) = putTree f (name s) := by
  rw [name, putTree]; rfl

theorem putExport_eq (f : Formatter) (e : ExportEntry) : putExport f e = putTree f (exportTree asCharacter e) := by
  unfold putExport exportTree
  simp only [kind_eq]
  simp [putTree, putTrees, str_eq, name_eq, num_eq]

theorem putImportType_eq (f : Formatter) (t : ImportType) : putImportType f t = putTree f (importTypeTree asCharacter t) := by
  cases t with
  | function t => simp [putImportType, importTypeTree, putTree, putTrees, str_eq, num_eq]
  | table t l => simp [putImportType, importTypeTree, putTree, putTrees, putTrees_append, str_eq, typeName_eq, putLimits_eq]
  | memory l => simp [putImportType, importTypeTree, putTree, putTrees, str_eq, putLimits_eq]
  | global g => exact putGlobalType_eq f g

theorem putImport_eq (f : Formatter) (e : ImportEntry) : putImport f e = putTree f (importTree asCharacter e) := by
  unfold putImport importTree
  simp [putTree, putTrees, str_eq, name_eq, num_eq, putImportType_eq, importKind_eq]

/-- Initializers. -/
def IsInit (e : Expr) : Prop :=
  (e.op = 0x23#8 ∨ e.op = 0x41#8 ∨ e.op = 0x42#8 ∨ e.op = 0x43#8 ∨ e.op = 0x44#8) ∧
    match e.imm with
    | .index _ | .int _ | .u32 _ | .u64 _ => True
    | _ => False

theorem initName_eq (op : Byte) (h : op = 0x23#8 ∨ op = 0x41#8 ∨ op = 0x42#8 ∨ op = 0x43#8 ∨ op = 0x44#8) :
    (opName op).getD "unknown" = initName op := by
  rcases h with rfl | rfl | rfl | rfl | rfl <;> decide +kernel

theorem putExpr_eq (f : Formatter) (e : Expr) (h : IsInit e) : putExpr f e = putTrees f (instrTrees asCharacter e) := by
  unfold putExpr instrTrees
  rw [initName_eq _ h.1]
  have := h.2
  cases hi : e.imm with
  | int n => simp only [putImm, putTrees, str_eq, int_eq]
  | index n => simp [putImm, putTrees, str_eq, num_eq]
  | u32 n => simp [putImm, putTrees, str_eq, num_eq]
  | u64 n => simp [putImm, putTrees, str_eq, num_eq]
  | _ => rw [hi] at this; exact this.elim

theorem dataString_eq (l : List Byte) : dataString l = '"' :: l.flatMap dataByte ++ ['"'] := by
  have : (fun b : Byte => if 32 < b.toNat ∧ b.toNat < 127 then [chr b] else ['\\', chr b]) = dataByte := by
    funext b
    unfold dataByte
    split <;> rename_i h
    · rw [if_pos (by omega)]
    · rw [if_neg (by omega)]
  unfold dataString
  rw [this]
  rfl

theorem putData_eq (f : Formatter) (d : DataSegment) (h : IsInit d.init) :
    putData f d = putTree f (dataTree asCharacter d) := by
  unfold putData dataTree
  simp only [putTree, putTrees_append, putTrees, str_eq, putExpr_eq _ _ h, dataString_eq]

/-! ### Items -/

/-- The printer inside the module, with `b` written. -/
def Inside (p : Printer) (b : List Char) : Prop := p.out = ⟨b, 1, false, true⟩ ∧ p.console = []

/-- A line. -/
def line (t : Tree) : List Char := "\n  ".toList ++ t.render

theorem putTree_line (b : List Char) (t : Tree) (h : height t ≤ 5) :
    putTree (Formatter.freshen ⟨b, 1, false, true⟩) t = ⟨b ++ line t, 1, false, true⟩ := by
  rw [show Formatter.freshen ⟨b, 1, false, true⟩ = ⟨b ++ ['\n'], 1, true, false⟩ from rfl, putTree_eq _ t (by simp only; omega)]
  simp [line, lead, indentation]

theorem heights_append (a b : List Tree) : heights (a ++ b) = max (heights a) (heights b) := by
  induction a with
  | nil => simp [heights]
  | cons t a ih => rw [List.cons_append, heights, heights, ih, Nat.max_assoc]

theorem heights_map {g : α → Tree} (h : ∀ a, height (g a) = 0) (l : List α) : heights (l.map g) = 0 := by
  induction l with
  | nil => rfl
  | cons a l ih => rw [List.map_cons, heights, ih, h]; rfl

@[simp] theorem height_word (s : String) : height (word s) = 0 := rfl
@[simp] theorem height_number (num : Int → List Char) (n : Int) : height (number num n) = 0 := rfl
@[simp] theorem height_name (s : List Byte) : height (name s) = 0 := rfl
@[simp] theorem height_kind (t : Byte) : height (kind t) = 0 := rfl
@[simp] theorem height_value (t : Byte) : height (valueType t) = 0 := rfl

theorem height_funcType (t : FunctionType) : height (funcTypeTree t) ≤ 2 := by
  have := heights_map height_value t.params
  unfold funcTypeTree
  cases t.hasReturn <;> split <;> simp [height, heights, this]

theorem heights_limits (num : Int → List Char) (l : Limits) : heights (limitsTrees num l) = 0 := by
  unfold limitsTrees
  cases l.hasMax <;> simp [heights]

theorem height_globalType (g : GlobalType) : height (globalTypeTree g) = 1 := by
  unfold globalTypeTree
  cases g.isMutable <;> simp [height, heights]

theorem height_import (num : Int → List Char) (e : ImportEntry) : height (importTree num e) ≤ 2 := by
  have h : height (importTypeTree num e.type) ≤ 1 := by
    cases e.type <;> simp [importTypeTree, height, heights, heights_append, heights_limits, height_globalType]
  unfold importTree
  simp only [height, heights, height_word, height_name, height_number]
  omega

theorem height_export (num : Int → List Char) (e : ExportEntry) : height (exportTree num e) ≤ 2 := by
  simp [exportTree, height, heights]

theorem heights_instr (num : Int → List Char) (e : Expr) : heights (instrTrees num e) = 0 := by
  unfold instrTrees
  cases e.imm <;> simp [heights]

theorem height_global (num : Int → List Char) (g : GlobalType × Expr) : height (globalTree num g) ≤ 2 := by
  simp [globalTree, height, heights, heights_instr, height_globalType]

theorem height_elements (num : Int → List Char) (e : Elements) : height (elementsTree num e) ≤ 2 := by
  have := heights_map (g := fun (n : U32) => number num n.toNat) (fun _ => rfl) e.items
  simp [elementsTree, height, heights, heights_instr, this]

theorem height_data (num : Int → List Char) (d : DataSegment) : height (dataTree num d) ≤ 2 := by
  simp [dataTree, height, heights, heights_append, heights_instr]

theorem freshen_twice (f : Formatter) : f.freshen.freshen = f.freshen := by
  unfold Formatter.freshen
  cases h : f.fresh <;> simp [h]

/-- Calls that print one line for each item. -/
theorem tell_lines (mem : Nat) (be : Printer → Nat → FunctionBody → List Byte → Outcome Printer) {α : Type} {g : α → List Call}
    {t : α → Tree} {l : List α}
    (h : ∀ a ∈ l, ∀ p b, Inside p b → ∃ q, tell (wastPrinter mem false) be p (g a) = .ok q ∧ Inside q (b ++ line (t a)))
    (p : Printer) (b : List Char) (hp : Inside p b) :
    ∃ q, tell (wastPrinter mem false) be p (l.flatMap g) = .ok q ∧ Inside q (b ++ (l.map t).flatMap line) := by
  induction l generalizing p b with
  | nil => exact ⟨p, rfl, by simpa using hp⟩
  | cons a l ih =>
    obtain ⟨q, h1, h2⟩ := h a (by simp) p b hp
    obtain ⟨r, h3, h4⟩ := ih (fun a ha => h a (by simp [ha])) q _ h2
    refine ⟨r, ?_, by simpa using h4⟩
    rw [List.flatMap_cons, tell_append, h1]
    exact h3

theorem tell_line (mem : Nat) (be : Printer → Nat → FunctionBody → List Byte → Outcome Printer) (p : Printer) (b : List Char)
    (hp : Inside p b) (e : Event) (t : Tree) (ht : height t ≤ 5)
    (h : Printer.event false p e = .ok { p with out := putTree p.out.freshen t }) :
    ∃ q, tell (wastPrinter mem false) be p [.event e] = .ok q ∧ Inside q (b ++ line t) := by
  refine ⟨{ p with out := putTree p.out.freshen t }, ?_, ?_, hp.2⟩
  · show (Printer.event false p e >>= _) = _
    rw [h]
    rfl
  · show putTree p.out.freshen t = _
    rw [hp.1, putTree_line b t ht]

theorem flatMap_single (f : α → Call) (l : List α) : l.map f = l.flatMap fun a => [f a] := by
  induction l with
  | nil => rfl
  | cons a l ih => rw [List.map_cons, List.flatMap_cons, ih]; rfl

theorem tell_content (mem : Nat) (be : Printer → Nat → FunctionBody → List Byte → Outcome Printer) (c : Content)
    (hr : Readable (fun _ _ => False) c ∨ ∃ n q, c = .custom n q)
    (hi : ∀ l, c = .globals l → ∀ g ∈ l, IsInit g.2)
    (he : ∀ l, c = .elements l → ∀ g ∈ l, IsInit g.offset)
    (hd : ∀ l, c = .data l → ∀ g ∈ l, IsInit g.init) (p : Printer) (b : List Char) (hp : Inside p b) :
    ∃ q, tell (wastPrinter mem false) be p (contentCalls c) = .ok q ∧ Inside q (b ++ (items asCharacter c).flatMap line) := by
  cases c with
  | custom n q => exact ⟨p, rfl, by simpa [items] using hp⟩
  | types l =>
    rw [contentCalls, flatMap_single]
    exact tell_lines mem be (t := funcTypeTree) (fun t _ p b hp =>
      tell_line mem be p b hp _ (funcTypeTree t) (Nat.le_trans (height_funcType t) (by decide))
        (by rw [Printer.event, putFunctionType_eq, freshen_twice])) p b hp
  | imports l =>
    rw [contentCalls, flatMap_single]
    exact tell_lines mem be (t := importTree asCharacter) (fun t _ p b hp =>
      tell_line mem be p b hp _ (importTree asCharacter t) (Nat.le_trans (height_import _ t) (by decide))
        (by rw [Printer.event, putImport_eq])) p b hp
  | functions l =>
    rw [contentCalls]
    have : ∀ (k : Nat) (p : Printer), Inside p b → ∃ q, tell (wastPrinter mem false) be p
        ((l.zipIdx k).map fun (x : U32 × Nat) => .event (.functionEntry x.2 x.1)) = .ok q ∧ Inside q b := by
      clear hr hp
      induction l with
      | nil => intro k p hp; exact ⟨p, rfl, hp⟩
      | cons a l ih =>
        intro k p hp
        exact ih (by simp) (by simp) (by simp) (k + 1) _ ⟨hp.1, hp.2⟩
    obtain ⟨q, h1, h2⟩ := this 0 p hp
    exact ⟨q, h1, by simpa [items] using h2⟩
  | tables => rcases hr with h | ⟨_, _, h⟩ <;> cases h
  | memories => rcases hr with h | ⟨_, _, h⟩ <;> cases h
  | globals l =>
    rw [contentCalls, flatMap_single]
    exact tell_lines mem be (t := globalTree asCharacter) (fun t ht p b hp =>
      tell_line mem be p b hp _ (globalTree asCharacter t) (Nat.le_trans (height_global _ t) (by decide))
        (by rw [Printer.event, putGlobalType_eq, putExpr_eq _ _ (hi _ rfl t ht)]
            simp [globalTree, putTree, putTrees, str_eq])) p b hp
  | exports l =>
    rw [contentCalls, flatMap_single]
    exact tell_lines mem be (t := exportTree asCharacter) (fun t _ p b hp =>
      tell_line mem be p b hp _ (exportTree asCharacter t) (Nat.le_trans (height_export _ t) (by decide))
        (by rw [Printer.event, putExport_eq])) p b hp
  | start => rcases hr with h | ⟨_, _, h⟩ <;> cases h
  | elements l =>
    rw [contentCalls]
    refine tell_lines mem be (t := elementsTree asCharacter) (fun t ht p b hp => ?_) p b hp
    have hx : IsInit t.offset := he _ rfl t ht
    unfold elementCalls
    simp only [List.cons_append, tell]
    have key : ∀ (e : ElementEntry) (l : List U32) (p : Printer), tell (wastPrinter mem false) be p
        ((l.map fun n => .event (.element e n)) ++ [.event (.elementEntryEnd e)]) =
        .ok { p with out := (putTrees p.out (l.map fun n => number asCharacter n.toNat)).stop } := by
      intro e l
      induction l with
      | nil => intro p; rw [List.map_nil, List.map_nil, putTrees]; rfl
      | cons a l ih =>
        intro p
        rw [List.map_cons, List.map_cons, List.cons_append, tell, putTrees]
        show (Outcome.ok _ >>= _) = _
        simp only [Outcome.ok_bind]
        rw [ih, num_eq]
    show ∃ q, (Outcome.ok _ >>= _) = _ ∧ _
    simp only [Outcome.ok_bind]
    rw [key]
    refine ⟨_, rfl, ?_, hp.2⟩
    simp only
    rw [← putTree_line b (elementsTree asCharacter t) (Nat.le_trans (height_elements _ t) (by decide)), hp.1, str_eq, putExpr_eq _ _ hx]
    simp [elementsTree, putTree, putTrees]
  | code l =>
    rcases hr with h | ⟨_, _, h⟩
    · cases l with
      | nil => exact ⟨p, rfl, by simpa [items] using hp⟩
      | cons f l => exact (h f (by simp)).elim
    · cases h
  | data l =>
    rw [contentCalls, flatMap_single]
    exact tell_lines mem be (t := dataTree asCharacter) (fun t ht p b hp =>
      tell_line mem be p b hp _ (dataTree asCharacter t) (Nat.le_trans (height_data _ t) (by decide))
        (by rw [Printer.event, putData_eq _ _ (hd _ rfl t ht)])) p b hp

theorem isInit {L : List Byte → Prop} {bs : List Byte} {e : Expr} (h : EncInit L bs e) : IsInit e := by
  obtain ⟨cs, -, hi, ho⟩ := h
  refine ⟨ho, ?_⟩
  have hn : e.op.toNat = 0x23 ∨ (0x41 ≤ e.op.toNat ∧ e.op.toNat ≤ 0x44) := by
    rcases ho with h | h | h | h | h <;> rw [h] <;> decide
  cases hi with
  | plain h => unfold PlainOp IndexOp at h; simp only at hn; omega
  | block h => unfold BlockOp at h; simp only at hn; omega
  | memory h => unfold MemoryOp at h; simp only at hn; omega
  | table => simp at hn
  | callIndirect => simp at hn
  | _ => trivial

theorem encSeq_mem {P : List Byte → α → Prop} {bs : List Byte} {l : List α} (h : EncSeq P bs l) (a : α) (ha : a ∈ l) :
    ∃ cs, P cs a := by
  induction h with
  | nil => cases ha
  | cons hc _ ih =>
    rcases List.mem_cons.1 ha with rfl | ha
    · exact ⟨_, hc⟩
    · exact ih ha

theorem encVec_mem {P : List Byte → α → Prop} {bs : List Byte} {l : List α} (h : EncVec P bs l) (a : α) (ha : a ∈ l) :
    ∃ cs, P cs a := by
  obtain ⟨_, _, _, _, _, h⟩ := h
  exact encSeq_mem h a ha

theorem tell_section (mem : Nat) (be : Printer → Nat → FunctionBody → List Byte → Outcome Printer) (s : WSection) (p : Printer) :
    tell (wastPrinter mem false) be p (sectionCalls s) = tell (wastPrinter mem false) be p (contentCalls s.content) := by
  unfold sectionCalls
  simp only
  rw [tell_append, tell]
  show (tell (wastPrinter mem false) be p (contentCalls s.content) >>= _) = _
  cases tell (wastPrinter mem false) be p (contentCalls s.content) <;> rfl

theorem tell_sections (mem : Nat) (be : Printer → Nat → FunctionBody → List Byte → Outcome Printer) {L : List Byte → Prop}
    {bs : List Byte} {m : List WSection} (h : EncSeq (EncSection L) bs m)
    (hr : ∀ s ∈ m, Readable (fun _ _ => False) s.content ∨ ∃ n q, s.content = .custom n q) (p : Printer) (b : List Char) (hp : Inside p b) :
    ∃ q, tell (wastPrinter mem false) be p (m.flatMap sectionCalls) = .ok q ∧
      Inside q (b ++ (m.flatMap fun s => items asCharacter s.content).flatMap line) := by
  induction h generalizing p b with
  | nil => exact ⟨p, rfl, by simpa using hp⟩
  | @cons cs s ds m hs hd ih =>
    obtain ⟨n, q, -, -, -, hc⟩ := hs
    obtain ⟨q1, h1, h2⟩ := tell_content mem be s.content (hr s (by simp))
      (by
        intro l hl g hg
        rw [hl] at hc
        obtain ⟨_, _, _, _, _, hi⟩ := encVec_mem hc g hg
        exact isInit hi)
      (by
        intro l hl g hg
        rw [hl] at hc
        obtain ⟨_, _, _, _, _, _, hi, _⟩ := encVec_mem hc g hg
        exact isInit hi)
      (by
        intro l hl g hg
        rw [hl] at hc
        obtain ⟨_, _, _, _, _, _, hi, _⟩ := encVec_mem hc g hg
        exact isInit hi) p b hp
    obtain ⟨q2, h3, h4⟩ := ih (fun s hs => hr s (by simp [hs])) q1 _ h2
    refine ⟨q2, ?_, by simpa using h4⟩
    rw [List.flatMap_cons, tell_append, tell_section, h1]
    exact h3

end Ab.Wasm
