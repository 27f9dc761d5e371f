import Verif.DwarfInfo
import Verif.DwarfLineUnit

/-! # C62: specification of debugging information (DWARF 5, section 7.5) and its decoding

A unit is a forest of entries; an encoding is a relation between the forest and bytes, so that padded LEB128
numbers and all forms of a value are covered.  What a reader should do is a walk over the forest. -/
namespace Verif.DwarfInfo
open Verif.ByteReader
open Verif.DwarfLine (cstr IsU IsS encodeFixed_len cstr_spec encodeDigits_len initialLength readInitialLength_ok)

/-- `s` is the string at offset `off` of a string section. -/
def StrIn (buf : List Nat) (off : Nat) (s : List Nat) : Prop :=
  ∃ pre post, buf = pre ++ (s ++ 0 :: post) ∧ pre.length = off ∧ ∀ c ∈ s, c ≠ 0

/-- The content of an attribute: a number, a signed number, a string, a block, the number of a string or of an
address in the unit's tables, or something a reader of 64-bit values passes over. -/
inductive Raw where
  | u (v : Nat)
  | s (v : Int)
  | str (v : List Nat)
  | block (v : List Nat)
  | strNo (i : Nat)
  | addrNo (i : Nat)
  | other
deriving DecidableEq, Repr

/-- Forms that are a number of fixed size, with the size. -/
def fixedForms : List (Nat × Nat) :=
  [(0x0b, 1), (0x0c, 1), (0x11, 1), (0x05, 2), (0x12, 2), (0x06, 4), (0x13, 4), (0x07, 8), (0x14, 8), (0x20, 8)]

/-- Encodings of an attribute (DWARF 5, 7.5.6): of which form, with which constant in the abbreviation, the form that
remains after indirection, the content and the bytes.  `w`: the content is reported, otherwise skipped.
Conditions on `w` mark the forms where the reader handles a part of the standard only: strings in
`.debug_line_str` are never skipped; location lists, forms referring to a supplementary file and addresses whose
number takes several bytes are never reported. -/
inductive AttrEnc (cx : Ctx) (w : Bool) : Nat → Nat → Nat → Raw → List Nat → Prop where
  | flagPresent (c : Nat) : AttrEnc cx w 0x19 c 0x19 (.u 1) []
  | fixed (form n v c : Nat) (hf : (form, n) ∈ fixedForms) (hv : v < 256 ^ n) :
      AttrEnc cx w form c form (.u v) (encodeFixed cx.endian n v)
  | data16 (c : Nat) (bs : List Nat) (h : bs.length = 16) : AttrEnc cx w 0x1e c 0x1e .other bs
  | string (c : Nat) (s : List Nat) (h : ∀ x ∈ s, x ≠ 0) : AttrEnc cx w 0x08 c 0x08 (.str s) (s ++ [0])
  | uleb (form c v : Nat) (hf : form ∈ [0x0f, 0x15, 0x23]) (bs : List Nat) (h : IsU v bs) :
      AttrEnc cx w form c form (.u v) bs
  | sleb (c : Nat) (v : Int) (bs : List Nat) (h : IsS v bs) : AttrEnc cx w 0x0d c 0x0d (.s v) bs
  | addr (c v : Nat) (hv : v < 256 ^ cx.addrSize) :
      AttrEnc cx w 0x01 c 0x01 (.u v) (encodeFixed cx.endian cx.addrSize v)
  | refAddr2 (c v : Nat) (hver : cx.version = 2) (hv : v < 256 ^ cx.addrSize) :
      AttrEnc cx w 0x10 c 0x10 (.u v) (encodeFixed cx.endian cx.addrSize v)
  | refAddr (c v : Nat) (hver : cx.version ≠ 2) (hv : v < 256 ^ cx.offSize) :
      AttrEnc cx w 0x10 c 0x10 (.u v) (encodeFixed cx.endian cx.offSize v)
  | secOffset (c v : Nat) (hv : v < 256 ^ cx.offSize) :
      AttrEnc cx w 0x17 c 0x17 (.u v) (encodeFixed cx.endian cx.offSize v)
  | blockN (form n c : Nat) (hf : (form, n) ∈ [(0x0a, 1), (0x03, 2), (0x04, 4)]) (data : List Nat)
      (h : data.length < 256 ^ n) :
      AttrEnc cx w form c form (.block data) (encodeFixed cx.endian n data.length ++ data)
  | block (form c : Nat) (hf : form ∈ [0x09, 0x18]) (l data : List Nat) (h : IsU data.length l) :
      AttrEnc cx w form c form (.block data) (l ++ data)
  | strp (c off : Nat) (s buf : List Nat) (hb : cx.str = some buf) (hoff : off < 256 ^ cx.offSize)
      (h : StrIn buf off s) : AttrEnc cx w 0x0e c 0x0e (.str s) (encodeFixed cx.endian cx.offSize off)
  | lineStrp (hw : w = true) (c off : Nat) (s buf : List Nat) (hb : cx.lineStr = some buf)
      (hoff : off < 256 ^ cx.offSize) (h : StrIn buf off s) :
      AttrEnc cx w 0x1f c 0x1f (.str s) (encodeFixed cx.endian cx.offSize off)
  | strxN (form n c i : Nat) (hf : (form, n) ∈ [(0x25, 1), (0x26, 2), (0x27, 3), (0x28, 4)]) (hi : i < 256 ^ n) :
      AttrEnc cx w form c form (.strNo i) (encodeFixed cx.endian n i)
  | strx (form c i : Nat) (hf : form ∈ [0x1a, 0x1f02]) (bs : List Nat) (h : IsU i bs) :
      AttrEnc cx w form c form (.strNo i) bs
  | addrx1 (c i : Nat) (hi : i < 256) : AttrEnc cx w 0x29 c 0x29 (.addrNo i) [i]
  | addrxN (hw : w = false) (form n c i : Nat) (hf : (form, n) ∈ [(0x2a, 2), (0x2b, 3), (0x2c, 4)])
      (hi : i < 256 ^ n) : AttrEnc cx w form c form (.addrNo i) (encodeFixed cx.endian n i)
  | addrx (form c i : Nat) (hf : form ∈ [0x1b, 0x1f01]) (bs : List Nat) (h : IsU i bs)
      (hw : w = true → bs.length = 1) : AttrEnc cx w form c form (.addrNo i) bs
  | implicitConst (c : Nat) (hver : cx.version = 5) : AttrEnc cx w 0x21 c 0x21 (.s c) []
  | loclistx (hw : w = false) (c i : Nat) (bs : List Nat) (h : IsU i bs) : AttrEnc cx w 0x22 c 0x22 .other bs
  | refSup (hw : w = false) (form n c : Nat) (hf : (form, n) ∈ [(0x1c, 4), (0x24, 8), (0x1d, cx.offSize)])
      (bs : List Nat) (h : bs.length = n) : AttrEnc cx w form c form .other bs
  | indirect (form c final : Nat) (r : Raw) (l bs : List Nat) (hf : form ≠ 0x21) (hlt : form < 2 ^ 32)
      (hl : IsU form l) (h : AttrEnc cx w form 0 final r bs) : AttrEnc cx w 0x16 c final r (l ++ bs)

/-- Encodings of the attributes of an entry; for each one the remaining form and the content. -/
def AttrsEnc (cx : Ctx) (w : Bool) : List Spec → List (Nat × Raw) → List Nat → Prop
  | [], vs, bs => vs = [] ∧ bs = []
  | a :: as, vs, bs => ∃ f r vs' b bs', AttrEnc cx w a.form a.value f r b ∧ AttrsEnc cx w as vs' bs' ∧
      vs = (f, r) :: vs' ∧ bs = b ++ bs'

/-- A list of entries with the entries below them: for each one its offset in the section, its abbreviation code,
and its attributes. -/
inductive Forest where
  | nil
  | cons (off code : Nat) (vals : List (Nat × Raw)) (kids next : Forest)

/-- Encodings of a list of entries at an offset, given the abbreviations and which tags are of interest (DWARF 5,
7.5.2 and 7.5.3).  The entries below an entry are closed by a null entry. -/
def Forest.Enc (cx : Ctx) (abbrevs : List Abbrev) (wants : Nat → Bool) : Forest → Nat → List Nat → Prop
  | .nil, _, bs => bs = []
  | .cons o code vals kids next, off, bs => ∃ (a : Abbrev) (c b k z n : List Nat), o = off ∧ code ≠ 0 ∧
      abbrevs[code - 1]? = some a ∧ IsU code c ∧ AttrsEnc cx (wants a.tag) a.attrs vals b ∧
      (if a.children then kids.Enc cx abbrevs wants (off + c.length + b.length) k ∧ IsU 0 z
       else kids = .nil ∧ k = [] ∧ z = []) ∧
      next.Enc cx abbrevs wants (off + c.length + b.length + k.length + z.length) n ∧
      bs = c ++ (b ++ (k ++ (z ++ n)))

/-- What is reported for a content: strings and addresses given by number are looked up in the unit's tables at the
bases in force (`strIndex`, `addrIndex`). -/
def Raw.report (cx : Ctx) (sb ab : Nat) : Raw → Option (Option Val)
  | .u v => some (some (.u v))
  | .s v => some (some (.s v))
  | .str v => some (some (.str (some v)))
  | .block v => some (some (.block v))
  | .strNo i => (strIndex cx sb i).map fun s => some (.str s)
  | .addrNo i => (addrIndex cx ab i).map fun a => some (.u a)
  | .other => some none

/-- One call of the handler, if there is something to report. -/
def report1 {σ : Type} (H : Handler σ) (off name f : Nat) : Option Val → σ → Option σ
  | none, s => some s
  | some v, s => H.attr s off name f v

/-- Reporting attributes in order. -/
def report {σ : Type} (H : Handler σ) (cx : Ctx) (off : Nat) : List Spec → List (Nat × Raw) → σ → Option σ
  | a :: as, (f, r) :: vs, s => do
    let v ← r.report cx (H.strBase s) (H.addrBase s)
    let s ← report1 H off a.name f v s
    report H cx off as vs s
  | _, _, s => some s

/-- Reporting attributes if they are wanted. -/
def reportIf {σ : Type} (w : Bool) (H : Handler σ) (cx : Ctx) (off : Nat) (as : List Spec) (vs : List (Nat × Raw)) (s : σ) :
    Option σ := if w then report H cx off as vs s else some s

/-- What a reader should do: for each entry in order, start it, report its attributes if they are wanted, visit the
entries below it, end it. -/
def Forest.walk {σ : Type} (H : Handler σ) (cx : Ctx) (abbrevs : List Abbrev) : Forest → σ → Option σ
  | .nil, s => some s
  | .cons off code vals kids next, s => do
    let a ← abbrevs[code - 1]?
    let (s, w) ← H.startDie s off a.tag a.attrs
    let s ← reportIf w H cx off a.attrs vals s
    let s ← kids.walk H cx abbrevs s
    let s ← H.endDie s off
    next.walk H cx abbrevs s

/-! ## Proofs -/

theorem isU_pos {v : Nat} {bs : List Nat} (h : IsU v bs) : bs ≠ [] := by
  obtain ⟨_, ds, h1, _, _, _, rfl⟩ := h
  intro hc
  have := congrArg List.length hc
  rw [encodeDigits_len] at this
  simp at this
  exact h1 this

/-- Reading an attribute of the right sizes: what the byte at the front of the rest is does not matter. -/
structure Sizes (cx : Ctx) : Prop where
  addr : cx.addrSize = 4 ∨ cx.addrSize = 8
  off : cx.offSize = 4 ∨ cx.offSize = 8

theorem strAt_ok {buf : List Nat} {off : Nat} {s : List Nat} (h : StrIn buf off s) : strAt buf off = some (some s) := by
  obtain ⟨pre, post, rfl, rfl, hs⟩ := h
  unfold strAt
  rw [if_neg (by simp), List.drop_left, cstr_spec _ _ hs]
  rfl

theorem resolve_direct (form : Nat) (h : form ≠ 0x16) (bs : List Nat) : resolveForm form bs = some (form, 0) := by
  rw [resolveForm, if_neg h]

theorem attrEnc_final {cx : Ctx} {w : Bool} {form c f : Nat} {r : Raw} {b : List Nat}
    (h : AttrEnc cx w form c f r b) (hne : form ≠ 0x16) : f = form := by
  cases h <;> first | rfl | exact absurd rfl hne

theorem attrEnc_indirect {cx : Ctx} {w : Bool} {c f : Nat} {r : Raw} {b : List Nat}
    (h : AttrEnc cx w 0x16 c f r b) : ∃ form l bs, form ≠ 0x21 ∧ form < 2 ^ 32 ∧ IsU form l ∧
      AttrEnc cx w form 0 f r bs ∧ b = l ++ bs := by
  generalize hg : 0x16 = g at h
  cases h with
  | indirect form c final r l bs hf hlt hl h => exact ⟨form, l, bs, hf, hlt, hl, h, rfl⟩
  | fixed form n v c hf hv => subst hg; simp [fixedForms] at hf
  | uleb form c v hf bs h => subst hg; simp at hf
  | blockN form n c hf data h => subst hg; simp at hf
  | block form c hf l data h => subst hg; simp at hf
  | strxN form n c i hf hi => subst hg; simp at hf
  | strx form c i hf bs h => subst hg; simp at hf
  | addrxN hw form n c i hf hi => subst hg; simp at hf
  | addrx form c i hf bs h hw => subst hg; simp at hf
  | refSup hw form n c hf bs h => subst hg; simp at hf
  | _ => cases hg

theorem attrEnc_direct {cx : Ctx} {w : Bool} {form c f : Nat} {r : Raw} {b : List Nat}
    (h : AttrEnc cx w form c f r b) (rest : List Nat) :
    ∃ l b', b = l ++ b' ∧ resolveForm form (b ++ rest) = some (f, l.length) ∧
      AttrEnc cx w f (if form = 0x16 then 0 else c) f r b' ∧ f ≠ 0x16 := by
  induction hn : b.length using Nat.strongRecOn generalizing form c b with
  | _ n ih =>
    by_cases hf : form = 0x16
    · subst hf
      obtain ⟨form', l, bs, _, hlt, hl, h', rfl⟩ := attrEnc_indirect h
      have hpos : l.length ≠ 0 := by have := isU_pos hl; simpa using this
      obtain ⟨l', b', rfl, h2, h3, h4⟩ := ih bs.length (by simp at hn; omega) h' rfl
      refine ⟨l ++ l', b', by simp, ?_, ?_, h4⟩
      · rw [resolveForm, if_pos rfl, List.append_assoc, hl.read]
        simp only [Option.bind_eq_bind, Option.bind_some, List.drop_left, Nat.mod_eq_of_lt hlt, h2,
          List.length_append]
      · simpa using h3
    · have := attrEnc_final h hf
      subst this
      exact ⟨[], b, rfl, resolve_direct _ hf _, by rw [if_neg hf]; exact h, hf⟩

theorem readFixed_ok (e : Endian) (n v : Nat) (hn : n = 1 ∨ n = 2 ∨ n = 3 ∨ n = 4 ∨ n = 8) (hv : v < 256 ^ n)
    (rest : List Nat) : readFixed e n (encodeFixed e n v ++ rest) = some v := fixed_roundtrip e n v hn hv rest

theorem drop_fixed (e : Endian) (n v : Nat) (rest : List Nat) : (encodeFixed e n v ++ rest).drop n = rest := by
  have h := List.drop_left (l₁ := encodeFixed e n v) (l₂ := rest)
  rwa [encodeFixed_len] at h

theorem blockAt_ok (data rest : List Nat) : blockAt data.length (data ++ rest) = some (.block data) := by
  unfold blockAt
  rw [if_pos (by simp), List.take_left]

/-- A direct form is skipped by its length. -/
theorem skipForm_ok {cx : Ctx} (hs : Sizes cx) {form c : Nat} {r : Raw} {b : List Nat}
    (h : AttrEnc cx false form c form r b) (hne : form ≠ 0x16) (rest : List Nat) :
    skipForm cx form (b ++ rest) = some b.length := by
  cases h with
  | indirect => exact absurd rfl hne
  | fixed _ n v c hf hv =>
    rw [encodeFixed_len]
    simp only [fixedForms, List.mem_cons, Prod.mk.injEq, List.not_mem_nil, or_false] at hf
    rcases hf with ⟨rfl, rfl⟩ | ⟨rfl, rfl⟩ | ⟨rfl, rfl⟩ | ⟨rfl, rfl⟩ | ⟨rfl, rfl⟩ | ⟨rfl, rfl⟩ | ⟨rfl, rfl⟩ | ⟨rfl, rfl⟩ |
      ⟨rfl, rfl⟩ | ⟨rfl, rfl⟩ <;> simp [skipForm]
  | flagPresent => simp [skipForm]
  | data16 _ _ h => simp [skipForm, h]
  | string _ _ h =>
    simp only [List.append_assoc, List.cons_append, List.nil_append, skipForm]
    rw [cstr_spec _ _ h]
    simp
  | uleb _ _ v hf _ h =>
    have := h.read rest
    simp only [List.mem_cons, List.not_mem_nil, or_false] at hf
    rcases hf with rfl | rfl | rfl <;> simp [skipForm, this]
  | sleb _ _ _ h => simp [skipForm, h.read rest]
  | addr _ v hv => simp [skipForm, encodeFixed_len]
  | refAddr2 _ v hver hv => simp [skipForm, encodeFixed_len, hver]
  | refAddr _ v hver hv => simp [skipForm, encodeFixed_len, hver]
  | secOffset _ v hv => simp [skipForm, encodeFixed_len]
  | blockN _ n _ hf data h =>
    simp only [List.mem_cons, Prod.mk.injEq, List.not_mem_nil, or_false] at hf
    rcases hf with ⟨rfl, rfl⟩ | ⟨rfl, rfl⟩ | ⟨rfl, rfl⟩ <;>
      simp [skipForm, readFixed_ok _ _ _ _ h, encodeFixed_len]
  | block _ _ hf l data h =>
    have := h.read (data ++ rest)
    simp only [List.mem_cons, List.not_mem_nil, or_false] at hf
    rcases hf with rfl | rfl <;> simp [skipForm, this, Nat.add_comm]
  | strp => simp [skipForm, encodeFixed_len]
  | lineStrp hw => cases hw
  | strxN _ n _ i hf hi =>
    simp only [List.mem_cons, Prod.mk.injEq, List.not_mem_nil, or_false] at hf
    rcases hf with ⟨rfl, rfl⟩ | ⟨rfl, rfl⟩ | ⟨rfl, rfl⟩ | ⟨rfl, rfl⟩ <;> simp [skipForm, encodeFixed_len]
  | strx _ _ i hf _ h =>
    have := h.read rest
    simp only [List.mem_cons, List.not_mem_nil, or_false] at hf
    rcases hf with rfl | rfl <;> simp [skipForm, this]
  | addrx1 => simp [skipForm]
  | addrxN hw _ n _ i hf hi =>
    simp only [List.mem_cons, Prod.mk.injEq, List.not_mem_nil, or_false] at hf
    rcases hf with ⟨rfl, rfl⟩ | ⟨rfl, rfl⟩ | ⟨rfl, rfl⟩ <;> simp [skipForm, encodeFixed_len]
  | addrx _ _ i hf _ h hw =>
    have := h.read rest
    simp only [List.mem_cons, List.not_mem_nil, or_false] at hf
    rcases hf with rfl | rfl <;> simp [skipForm, this]
  | implicitConst => simp [skipForm]
  | loclistx hw _ i _ h => simp [skipForm, h.read rest]
  | refSup hw _ n _ hf _ h =>
    simp only [List.mem_cons, Prod.mk.injEq, List.not_mem_nil, or_false] at hf
    rcases hf with ⟨rfl, rfl⟩ | ⟨rfl, rfl⟩ | ⟨rfl, rfl⟩ <;> simp [skipForm, h]

/-- A direct form that is reported is read back with its length. -/
theorem formVal_ok {cx : Ctx} (hs : Sizes cx) {form c : Nat} {r : Raw} {b : List Nat}
    (h : AttrEnc cx true form c form r b) (hne : form ≠ 0x16) (sb ab : Nat) (rest : List Nat) :
    formVal cx sb ab form c (b ++ rest) = (r.report cx sb ab).map fun v => (v, b.length) := by
  have hsa : cx.addrSize = 1 ∨ cx.addrSize = 2 ∨ cx.addrSize = 3 ∨ cx.addrSize = 4 ∨ cx.addrSize = 8 := by
    have := hs.addr; omega
  have hso : cx.offSize = 1 ∨ cx.offSize = 2 ∨ cx.offSize = 3 ∨ cx.offSize = 4 ∨ cx.offSize = 8 := by
    have := hs.off; omega
  cases h with
  | indirect => exact absurd rfl hne
  | fixed _ n v c hf hv =>
    rw [encodeFixed_len]
    simp only [fixedForms, List.mem_cons, Prod.mk.injEq, List.not_mem_nil, or_false] at hf
    rcases hf with ⟨rfl, rfl⟩ | ⟨rfl, rfl⟩ | ⟨rfl, rfl⟩ | ⟨rfl, rfl⟩ | ⟨rfl, rfl⟩ | ⟨rfl, rfl⟩ | ⟨rfl, rfl⟩ | ⟨rfl, rfl⟩ |
      ⟨rfl, rfl⟩ | ⟨rfl, rfl⟩ <;> simp [formVal, Raw.report, readFixed_ok _ _ _ _ hv]
  | flagPresent => simp [formVal, Raw.report]
  | data16 _ _ h => simp [formVal, Raw.report, h]
  | string _ _ h =>
    simp only [List.append_assoc, List.cons_append, List.nil_append, formVal]
    rw [cstr_spec _ _ h]
    simp [Raw.report]
  | uleb _ _ v hf _ h =>
    have := h.read rest
    simp only [List.mem_cons, List.not_mem_nil, or_false] at hf
    rcases hf with rfl | rfl | rfl <;> simp [formVal, this, Raw.report]
  | sleb _ _ _ h => simp [formVal, h.read rest, Raw.report]
  | addr _ v hv => simp [formVal, encodeFixed_len, Raw.report, readFixed_ok _ _ _ hsa hv]
  | refAddr2 _ v hver hv => simp [formVal, encodeFixed_len, hver, Raw.report, readFixed_ok _ _ _ hsa hv]
  | refAddr _ v hver hv => simp [formVal, encodeFixed_len, hver, Raw.report, readFixed_ok _ _ _ hso hv]
  | secOffset _ v hv => simp [formVal, encodeFixed_len, Raw.report, readFixed_ok _ _ _ hso hv]
  | blockN _ n _ hf data h =>
    simp only [List.mem_cons, Prod.mk.injEq, List.not_mem_nil, or_false] at hf
    rcases hf with ⟨rfl, rfl⟩ | ⟨rfl, rfl⟩ | ⟨rfl, rfl⟩ <;>
      simp [formVal, readFixed_ok _ _ _ _ h, encodeFixed_len, Raw.report, drop_fixed, blockAt_ok]
  | block _ _ hf l data h =>
    have := h.read (data ++ rest)
    simp only [List.mem_cons, List.not_mem_nil, or_false] at hf
    rcases hf with rfl | rfl <;> simp [formVal, this, Nat.add_comm, Raw.report, blockAt_ok]
  | strp _ off s buf hb hoff h =>
    simp [formVal, encodeFixed_len, Raw.report, readFixed_ok _ _ _ hso hoff, strAt_ok h, hb]
  | lineStrp _ _ off s buf hb hoff h =>
    simp [formVal, encodeFixed_len, Raw.report, readFixed_ok _ _ _ hso hoff, strAt_ok h, hb]
  | strxN _ n _ i hf hi =>
    simp only [List.mem_cons, Prod.mk.injEq, List.not_mem_nil, or_false] at hf
    rcases hf with ⟨rfl, rfl⟩ | ⟨rfl, rfl⟩ | ⟨rfl, rfl⟩ | ⟨rfl, rfl⟩ <;>
      cases he : strIndex cx sb i <;> simp [formVal, encodeFixed_len, Raw.report, readFixed_ok _ _ _ _ hi, he]
  | strx _ _ i hf _ h =>
    have := h.read rest
    simp only [List.mem_cons, List.not_mem_nil, or_false] at hf
    rcases hf with rfl | rfl <;> cases he : strIndex cx sb i <;> simp [formVal, this, Raw.report, he]
  | addrx1 _ i hi =>
    cases he : addrIndex cx ab i <;> simp [formVal, Raw.report, readFixed, he]
  | addrxN hw => cases hw
  | addrx _ _ i hf _ h hw =>
    have := h.read rest
    have hl := hw rfl
    simp only [List.mem_cons, List.not_mem_nil, or_false] at hf
    rcases hf with rfl | rfl <;> cases he : addrIndex cx ab i <;> simp [formVal, this, Raw.report, he, hl]
  | implicitConst _ hver => simp [formVal, Raw.report, hver]
  | loclistx hw => cases hw
  | refSup hw => cases hw

theorem skipAttr_ok {cx : Ctx} (hs : Sizes cx) {form c f : Nat} {r : Raw} {b : List Nat}
    (h : AttrEnc cx false form c f r b) (rest : List Nat) : skipAttr cx form (b ++ rest) = some b.length := by
  obtain ⟨l, b', rfl, h2, h3, h4⟩ := attrEnc_direct h rest
  unfold skipAttr
  rw [h2]
  simp only [Option.bind_eq_bind, Option.bind_some, List.append_assoc, List.drop_left]
  rw [skipForm_ok hs h3 h4]
  simp

theorem skipAttrs_ok {cx : Ctx} (hs : Sizes cx) (as : List Spec) {vs : List (Nat × Raw)} {b : List Nat}
    (h : AttrsEnc cx false as vs b) (rest : List Nat) : skipAttrs cx as (b ++ rest) = some b.length := by
  induction as generalizing vs b with
  | nil => obtain ⟨_, rfl⟩ := h; rfl
  | cons a as ih =>
    obtain ⟨f, r, vs', b, bs', h1, h2, rfl, rfl⟩ := h
    simp only [skipAttrs, List.append_assoc]
    rw [skipAttr_ok hs h1]
    simp only [Option.bind_eq_bind, Option.bind_some, List.drop_left]
    rw [ih h2]
    simp

/-- Constants are 0 except for the form that has one. -/
def Spec.Ok (a : Spec) : Prop := a.form ≠ 0x21 → a.value = 0

theorem processAttr_ok {σ : Type} (H : Handler σ) {cx : Ctx} (hs : Sizes cx) (off : Nat) (a : Spec) (ha : a.Ok)
    {f : Nat} {r : Raw} {b : List Nat} (h : AttrEnc cx true a.form a.value f r b) (rest : List Nat) (s : σ) :
    processAttr H cx off a (b ++ rest) s =
      ((r.report cx (H.strBase s) (H.addrBase s)).bind fun v => report1 H off a.name f v s).map
        fun s => (s, b.length) := by
  obtain ⟨l, b', rfl, h2, h3, h4⟩ := attrEnc_direct h rest
  have hc : (if a.form = 0x21 then a.value else 0) = (if a.form = 0x16 then 0 else a.value) := by
    by_cases h1 : a.form = 0x21
    · rw [if_pos h1, if_neg (by omega)]
    · rw [if_neg h1, ha h1, ite_self]
  unfold processAttr
  rw [h2]
  simp only [Option.bind_eq_bind, Option.bind_some, List.append_assoc, List.drop_left]
  rw [hc, formVal_ok hs h3 h4]
  cases r.report cx (H.strBase s) (H.addrBase s) with
  | none => rfl
  | some v =>
    cases v with
    | none => simp [report1]
    | some v =>
      simp only [Option.map_some, Option.bind_some, List.length_append, report1]
      cases H.attr s off a.name f v <;> rfl

theorem processAttrs_ok {σ : Type} (H : Handler σ) {cx : Ctx} (hs : Sizes cx) (off : Nat) (as : List Spec)
    (has : ∀ a ∈ as, a.Ok) {vs : List (Nat × Raw)} {b : List Nat} (h : AttrsEnc cx true as vs b) (rest : List Nat) (s : σ) :
    processAttrs H cx off as (b ++ rest) s = (report H cx off as vs s).map fun s => (s, b.length) := by
  induction as generalizing vs b s with
  | nil => obtain ⟨rfl, rfl⟩ := h; rfl
  | cons a as ih =>
    obtain ⟨f, r, vs', b, bs', h1, h2, rfl, rfl⟩ := h
    simp only [processAttrs, List.append_assoc, report]
    rw [processAttr_ok H hs off a (has a List.mem_cons_self) h1]
    simp only [Option.bind_eq_bind]
    cases r.report cx (H.strBase s) (H.addrBase s) with
    | none => rfl
    | some v =>
      simp only [Option.bind_some]
      have key : ∀ x : Option σ, ((x.map fun s => (s, b.length)).bind fun q =>
          (processAttrs H cx off as (List.drop q.2 (b ++ (bs' ++ rest))) q.1).bind fun q' =>
            some (q'.1, q.2 + q'.2)) =
          (x.bind fun s => report H cx off as vs' s).map fun s => (s, (b ++ bs').length) := by
        intro x
        cases x with
        | none => rfl
        | some s' =>
          simp only [Option.map_some, Option.bind_some, List.drop_left]
          rw [ih (fun a ha => has a (List.mem_cons_of_mem _ ha)) h2]
          cases report H cx off as vs' s' <;> simp
      exact key _

theorem dieAttrs_ok {σ : Type} (H : Handler σ) {cx : Ctx} (hs : Sizes cx) (off : Nat) (w : Bool) (as : List Spec)
    (has : ∀ a ∈ as, a.Ok) {vs : List (Nat × Raw)} {b : List Nat} (h : AttrsEnc cx w as vs b) (rest : List Nat) (s : σ) :
    dieAttrs H cx off w as (b ++ rest) s =
      (reportIf w H cx off as vs s).map fun s => (s, b.length) := by
  unfold dieAttrs reportIf
  cases w with
  | true => simp only [if_true]; exact processAttrs_ok H hs off as has h rest s
  | false =>
    simp only [Bool.false_eq_true, if_false]
    rw [skipAttrs_ok hs as h]
    rfl

/-- The handler's interest in an entry depends on its tag only. -/
def Wants {σ : Type} (H : Handler σ) (wants : Nat → Bool) : Prop :=
  ∀ s off tag attrs s' w, H.startDie s off tag attrs = some (s', w) → w = wants tag

/-- Null entries at the top level are passed over: padding. -/
def Nulls : List (List Nat) → Prop := fun zs => ∀ z ∈ zs, IsU 0 z

/-- **C62, the entries of a unit.** Whatever the encoding and whatever follows it, reading the bytes of a forest at
the right offset does what the walk over the forest does and goes on after them. -/
theorem dies_forest {σ : Type} (H : Handler σ) {cx : Ctx} (hs : Sizes cx) {abbrevs : List Abbrev}
    (hab : ∀ a ∈ abbrevs, ∀ sp ∈ a.attrs, sp.Ok) {wants : Nat → Bool} (hw : Wants H wants) (t : Forest) :
    ∀ (off : Nat) (bs : List Nat), t.Enc cx abbrevs wants off bs → ∀ (r : Nat) (rest : List Nat) (op : List Nat) (s : σ),
      dies H cx abbrevs (bs.length + r) off (bs ++ rest) op s =
        (t.walk H cx abbrevs s).bind fun s' => dies H cx abbrevs r (off + bs.length) rest op s' := by
  induction t with
  | nil =>
    intro off bs h r rest op s
    cases h
    simp [Forest.walk]
  | cons o code vals kids next ihk ihn =>
    intro off bs h r rest op s
    obtain ⟨a, c, b, k, z, n, rfl, h0, ha, hc, hb, hk, hn, rfl⟩ := h
    have hcpos := isU_pos hc
    have hclen : c.length ≠ 0 := by simpa using hcpos
    rw [dies, if_neg (by simp only [List.length_append]; omega)]
    simp only [List.append_assoc]
    rw [hc.read]
    simp only [h0, if_false, ha, List.drop_left, Forest.walk, Option.bind_eq_bind, Option.bind_some]
    cases hst : H.startDie s o a.tag a.attrs with
    | none => rfl
    | some p =>
      obtain ⟨s1, w⟩ := p
      have hwt := hw _ _ _ _ _ _ hst
      subst hwt
      simp only [Option.bind_some]
      rw [dieAttrs_ok H hs o _ a.attrs (hab a (List.mem_of_getElem? ha)) hb]
      cases reportIf (wants a.tag) H cx o a.attrs vals s1 with
      | none => rfl
      | some s2 =>
        simp only [Option.map_some, Option.bind_some, List.drop_left]
        by_cases hch : a.children = true
        · rw [if_pos hch] at hk ⊢
          have e1 : (c ++ (b ++ (k ++ (z ++ n)))).length + r - (c.length + b.length) =
              k.length + (z.length + (n.length + r)) := by simp; omega
          rw [e1, show o + (c.length + b.length) = o + c.length + b.length by omega, ihk _ _ hk.1]
          cases kids.walk H cx abbrevs s2 with
          | none => rfl
          | some s3 =>
            simp only [Option.bind_some]
            have hz := isU_pos hk.2
            have hzlen : z.length ≠ 0 := by simpa using hz
            rw [dies, if_neg (by omega), hk.2.read]
            simp only [if_true]
            cases H.endDie s3 o with
            | none => rfl
            | some s4 =>
              simp only [Option.bind_some, List.drop_left]
              rw [show z.length + (n.length + r) - z.length = n.length + r by omega, ihn _ _ hn]
              cases next.walk H cx abbrevs s4 with
              | none => rfl
              | some s5 =>
                simp only [Option.bind_some, List.length_append]
                congr 1
                omega
        · rw [if_neg hch] at hk ⊢
          obtain ⟨rfl, rfl, rfl⟩ := hk
          simp only [Forest.walk, Option.bind_some, List.nil_append]
          cases H.endDie s2 o with
          | none => rfl
          | some s4 =>
            simp only [Option.bind_some]
            have e1 : (c ++ (b ++ n)).length + r - (c.length + b.length) = n.length + r := by simp; omega
            have e2 : o + (c.length + b.length) = o + c.length + b.length + ([] : List Nat).length + ([] : List Nat).length := by
              simp; omega
            rw [e1, e2, ihn _ _ hn]
            cases next.walk H cx abbrevs s4 with
            | none => rfl
            | some s5 =>
              simp only [Option.bind_some, List.length_append, List.length_nil]
              congr 1
              omega

theorem dies_padding {σ : Type} (H : Handler σ) (cx : Ctx) (abbrevs : List Abbrev) (zs : List (List Nat))
    (hz : Nulls zs) (off : Nat) (rest : List Nat) (s : σ) :
    dies H cx abbrevs zs.flatten.length off (zs.flatten ++ rest) [] s = some s := by
  induction zs generalizing off with
  | nil => rw [dies]; simp
  | cons z zs ih =>
    have hz0 := hz z List.mem_cons_self
    have hzlen : z.length ≠ 0 := by have := isU_pos hz0; simpa using this
    rw [dies, if_neg (by simp only [List.flatten_cons, List.length_append]; omega)]
    simp only [List.flatten_cons, List.append_assoc]
    rw [hz0.read]
    simp only [if_true, List.drop_left, List.length_append]
    rw [show z.length + zs.flatten.length - z.length = zs.flatten.length by omega]
    exact ih (fun x hx => hz x (List.mem_cons_of_mem _ hx)) _

/-- **C62, all entries of a unit**: a forest followed by padding. -/
theorem dies_unit {σ : Type} (H : Handler σ) {cx : Ctx} (hs : Sizes cx) {abbrevs : List Abbrev}
    (hab : ∀ a ∈ abbrevs, ∀ sp ∈ a.attrs, sp.Ok) {wants : Nat → Bool} (hw : Wants H wants) (t : Forest)
    (off : Nat) (bs : List Nat) (ht : t.Enc cx abbrevs wants off bs) (zs : List (List Nat)) (hz : Nulls zs)
    (rest : List Nat) (s : σ) :
    dies H cx abbrevs (bs.length + zs.flatten.length) off (bs ++ (zs.flatten ++ rest)) [] s = t.walk H cx abbrevs s := by
  rw [dies_forest H hs hab hw t off bs ht]
  cases t.walk H cx abbrevs s with
  | none => rfl
  | some s' => simp only [Option.bind_some]; exact dies_padding H cx abbrevs zs hz _ rest s'

end Verif.DwarfInfo
