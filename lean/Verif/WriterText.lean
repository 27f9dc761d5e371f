import Verif.Writer

/-! # C52: the cluster file of Propeller (llvm_propeller_profile_writer.h:22-57, .cc:107-211)

Without the verbose comments. -/
namespace Verif.Layout
open Verif Verif.Chain Verif.Cluster

/-- `ClusterEncodingVersion`. -/
inductive Ver
  | v0 | v1
  deriving DecidableEq

/-- `llvm::join`, `absl::StrJoin` with a separator of one character. -/
def join (sep : Char) : List (List Char) → List Char
  | [] => []
  | [a] => a
  | a :: b :: t => a ++ sep :: join sep (b :: t)

/-- A block: `bb_id`, and `.clone` for a clone (llvm_propeller_profile_writer.cc:203-205). -/
def blockText (x : Nat × Nat) : List Char :=
  Sample.printNum 10 x.1 ++ if x.2 ≠ 0 then '.' :: Sample.printNum 10 x.2 else []

/-- What is written of a function. -/
structure FnRec where
  names : List (List Char)
  module_ : Option (List Char)
  paths : List (List Nat)
  /-- block id and clone number of each block, by cluster -/
  clusters : List (List (Nat × Nat))
  deriving DecidableEq

/-- The lines of a cluster: without blocks, not even the specifier is written (llvm_propeller_profile_writer.cc:200-207). -/
def clusterLine (v : Ver) (bs : List (Nat × Nat)) : List Char :=
  if bs = [] then [] else (match v with | .v0 => "!!".toList | .v1 => "c".toList) ++ join ' ' (bs.map blockText)

/-- The lines of a function (llvm_propeller_profile_writer.cc:136-207); `none`: a `CHECK` fails. -/
def fnLines (v : Ver) (r : FnRec) : Option (List (List Char)) :=
  match v with
  | .v0 =>
    if r.paths ≠ [] then none
    else some (('!' :: join '/' r.names ++ (match r.module_ with | none => [] | some m => " M=".toList ++ m)) ::
      r.clusters.map (clusterLine .v0))
  | .v1 =>
    some ((match r.module_ with | none => [] | some m => ["m ".toList ++ m]) ++ [("f ".toList ++ join ' ' r.names)] ++
      r.paths.map (fun p => 'p' :: join ' ' (p.map (Sample.printNum 10))) ++ r.clusters.map (clusterLine .v1))

/-- What is written for the functions of a layout. -/
def recOf (bbId clone : Nat → Nat) (cfg : Nat → Option CfgOut) (i : FnInfo) : Option FnRec :=
  (cfg i.fn).map fun c => ⟨c.names, c.module_, c.paths, i.clusters.map fun cl => cl.blocks.map fun n => (bbId n, clone n)⟩

/-- The cluster file. -/
def ccText (v : Ver) (rs : List FnRec) : Option (List Char) :=
  (gather (fnLines v) rs).map fun ls => ((match v with | .v0 => [] | .v1 => ["v1".toList]) ++ ls).flatMap (· ++ ['\n'])

/-! ### Specification: how the file is read -/

/-- Splits at each occurrence of a character. -/
def split (c : Char) : List Char → List (List Char)
  | [] => [[]]
  | a :: t => if a = c then [] :: split c t else match split c t with
    | [] => [[a]]
    | h :: r => (a :: h) :: r

/-- A decimal number, and what is left. -/
def number (s : List Char) : Option (Nat × List Char) :=
  match Sample.scanDigits 10 0 0 s with
  | (k, v, r) => if k = 0 then none else some (v, r)

/-- A block id with an optional clone number. -/
def readBlock (s : List Char) : Option (Nat × Nat) :=
  (number s).bind fun x => match x.2 with
    | [] => some (x.1, 0)
    | '.' :: r => (number r).bind fun y => if y.2 = [] then some (x.1, y.1) else none
    | _ => none

/-- A block id. -/
def readId (s : List Char) : Option Nat := (number s).bind fun x => if x.2 = [] then some x.1 else none

/-- What is known while reading: the functions so far, the last one first; and a module name that waits for its function. -/
structure RState where
  done : List FnRec := []
  mod_ : Option (List Char) := none

/-- Changes the last function. -/
def RState.last (st : RState) (f : FnRec → FnRec) : Option RState :=
  match st.done with
  | [] => none
  | r :: t => some { st with done := f r :: t }

/-- Reads a line of version 0: `!!` begins a cluster, `!` the names of a function. -/
def readLine0 (st : RState) : List Char → Option RState
  | '!' :: '!' :: s => (((split ' ' s).mapM readBlock)).bind fun bs => st.last fun r => { r with clusters := r.clusters ++ [bs] }
  | '!' :: s =>
    let ns := split '/' (s.takeWhile fun c => !decide (c = ' '))
    match s.dropWhile fun c => !decide (c = ' ') with
    | ' ' :: 'M' :: '=' :: m => some { st with done := ⟨ns, some m, [], []⟩ :: st.done }
    | [] => some { st with done := ⟨ns, none, [], []⟩ :: st.done }
    | _ => none
  | _ => none

/-- Reads a line of version 1: the first character tells what it is. -/
def readLine1 (st : RState) : List Char → Option RState
  | 'm' :: ' ' :: m => some { st with mod_ := some m }
  | 'f' :: ' ' :: s => some ⟨⟨split ' ' s, st.mod_, [], []⟩ :: st.done, none⟩
  | 'p' :: s => ((split ' ' s).mapM readId).bind fun p => st.last fun r => { r with paths := r.paths ++ [p] }
  | 'c' :: s => ((split ' ' s).mapM readBlock).bind fun bs => st.last fun r => { r with clusters := r.clusters ++ [bs] }
  | _ => none

/-- Reads a file. -/
def readCc (s : List Char) : Option (List FnRec) :=
  match (split '\n' s).dropLast with
  | ['v', '1'] :: ls => (ls.foldlM readLine1 {}).map fun st => st.done.reverse
  | ls => (ls.foldlM readLine0 {}).map fun st => st.done.reverse

/-- What can be written so that it can be read back. -/
structure Writable (v : Ver) (r : FnRec) : Prop where
  names : r.names ≠ []
  clean : ∀ n ∈ r.names, ' ' ∉ n ∧ '\n' ∉ n ∧ (v = .v0 → '/' ∉ n)
  mark : v = .v0 → ∀ n, r.names.head? = some n → n.head? ≠ some '!'
  mod_ : ∀ m, r.module_ = some m → '\n' ∉ m
  paths : ∀ p ∈ r.paths, p ≠ []
  noPaths : v = .v0 → r.paths = []
  clusters : ∀ c ∈ r.clusters, c ≠ []

/-! ### Proofs -/

theorem split_self {c : Char} {s : List Char} (h : c ∉ s) : split c s = [s] := by
  induction s with
  | nil => rfl
  | cons a t ih =>
    rw [List.mem_cons, not_or] at h
    rw [split, if_neg (fun e => h.1 e.symm), ih h.2]

theorem split_append {c : Char} {s t : List Char} (h : c ∉ s) : split c (s ++ c :: t) = s :: split c t := by
  induction s with
  | nil => simp [split]
  | cons a s ih =>
    rw [List.mem_cons, not_or] at h
    rw [List.cons_append, split, if_neg (fun e => h.1 e.symm), ih h.2]

theorem split_join {c : Char} : ∀ {ls : List (List Char)}, ls ≠ [] → (∀ l ∈ ls, c ∉ l) → split c (join c ls) = ls := by
  intro ls
  induction ls with
  | nil => intro h; exact absurd rfl h
  | cons a t ih =>
    intro _ h
    cases t with
    | nil => exact split_self (h a (by simp))
    | cons b t =>
      rw [join, split_append (h a (by simp)), ih (by simp) fun l hl => h l (by simp [hl])]

theorem split_lines : ∀ {ls : List (List Char)}, (∀ l ∈ ls, '\n' ∉ l) → split '\n' (ls.flatMap (· ++ ['\n'])) = ls ++ [[]] := by
  intro ls
  induction ls with
  | nil => intro _; rfl
  | cons a t ih =>
    intro h
    rw [List.flatMap_cons, List.append_assoc, List.singleton_append, split_append (h a (by simp)), ih fun l hl => h l (by simp [hl])]
    rfl

theorem mem_join {c sep : Char} : ∀ {ls : List (List Char)}, c ∈ join sep ls → c = sep ∨ ∃ l ∈ ls, c ∈ l := by
  intro ls
  induction ls with
  | nil => intro h; cases h
  | cons a t ih =>
    intro h
    cases t with
    | nil => exact .inr ⟨a, by simp, h⟩
    | cons b t =>
      rw [join, List.mem_append, List.mem_cons] at h
      rcases h with h | h | h
      · exact .inr ⟨a, by simp, h⟩
      · exact .inl h
      · rcases ih h with h | ⟨l, hl, h⟩
        · exact .inl h
        · exact .inr ⟨l, by simp [hl], h⟩

/-- Printed numbers are digits. -/
theorem printNum_digits (n : Nat) : ∀ c ∈ Sample.printNum 10 n, ∃ d, d < 10 ∧ c = Sample.digitChar d := by
  induction n using Nat.strongRecOn with
  | ind n ih =>
    intro c hc
    rw [Sample.printNum] at hc
    split at hc
    · rename_i h
      rw [List.mem_singleton] at hc
      exact ⟨n, by omega, hc⟩
    · rename_i h
      rcases List.mem_append.1 hc with hc | hc
      · exact ih _ (Nat.div_lt_self (by omega) (by omega)) c hc
      · rw [List.mem_singleton] at hc
        exact ⟨n % 10, Nat.mod_lt _ (by omega), hc⟩

theorem digit_ne {c : Char} (h : Sample.digitVal 10 c = none) (n : Nat) : c ∉ Sample.printNum 10 n := by
  intro hc
  obtain ⟨d, hd, rfl⟩ := printNum_digits n c hc
  rw [Sample.digitVal_digitChar 10 d (.inl rfl) hd] at h
  cases h

theorem number_print (n : Nat) {r : List Char} (hr : ∀ c ∈ r.head?, Sample.digitVal 10 c = none) :
    number (Sample.printNum 10 n ++ r) = some (n, r) := by
  unfold number
  rw [Sample.scanDigits_printNum 10 (.inl rfl)]
  have hl : 0 < (Sample.printNum 10 n).length := by
    rw [Sample.printNum]; split <;> simp
  have : ∀ k v, Sample.scanDigits 10 k v r = (k, v, r) := by
    intro k v
    cases r with
    | nil => rfl
    | cons c t => simp [Sample.scanDigits, hr c (by simp)]
  rw [this]
  simp only [Nat.zero_mul, Nat.zero_add]
  rw [if_neg (by omega)]

theorem readId_print (n : Nat) : readId (Sample.printNum 10 n) = some n := by
  unfold readId
  have := number_print n (r := []) (by simp)
  rw [List.append_nil] at this
  rw [this]; rfl

theorem readBlock_print (x : Nat × Nat) : readBlock (blockText x) = some x := by
  obtain ⟨a, b⟩ := x
  unfold readBlock blockText
  by_cases hb : b = 0
  · subst hb
    simp only [ne_eq, not_true, if_false]
    rw [number_print a (by simp)]; rfl
  · simp only [ne_eq, hb, not_false_iff, if_true]
    rw [number_print a (by simp; decide), Option.bind_some]
    simp only
    have := number_print b (r := []) (by simp)
    rw [List.append_nil] at this
    rw [this]; rfl

theorem mapM_print {α : Type} {f : List Char → Option α} {g : α → List Char} (h : ∀ a, f (g a) = some a) : ∀ l : List α,
    (l.map g).mapM f = some l := by
  intro l
  induction l with
  | nil => rfl
  | cons a t ih => rw [List.map_cons, List.mapM_cons, h a, ih]; rfl

theorem blockText_clean (x : Nat × Nat) {c : Char} (h : Sample.digitVal 10 c = none) (hc : c ≠ '.') : c ∉ blockText x := by
  unfold blockText
  intro hm
  rcases List.mem_append.1 hm with hm | hm
  · exact digit_ne h _ hm
  · split at hm
    · rcases List.mem_cons.1 hm with hm | hm
      · exact hc hm
      · exact digit_ne h _ hm
    · cases hm

theorem split_blocks {bs : List (Nat × Nat)} (h : bs ≠ []) : (split ' ' (join ' ' (bs.map blockText))).mapM readBlock = some bs := by
  rw [split_join (by simpa using h)]
  · exact mapM_print readBlock_print bs
  · intro l hl
    obtain ⟨x, _, rfl⟩ := List.mem_map.1 hl
    exact blockText_clean x (by decide) (by decide)

theorem fold_clusters {rd : RState → List Char → Option RState} {v : Ver} (hrd : ∀ st bs, bs ≠ [] → rd st (clusterLine v bs) =
      st.last fun r => { r with clusters := r.clusters ++ [bs] }) : ∀ (cs : List (List (Nat × Nat))) (r : FnRec) (t : List FnRec) (m : Option (List Char)),
    (∀ c ∈ cs, c ≠ []) → (cs.map (clusterLine v)).foldlM rd ⟨r :: t, m⟩ = some ⟨{ r with clusters := r.clusters ++ cs } :: t, m⟩ := by
  intro cs
  induction cs with
  | nil => intro r t m _; simp
  | cons c cs ih =>
    intro r t m h
    rw [List.map_cons, List.foldlM_cons, hrd _ _ (h c (by simp))]
    simp only [RState.last]
    refine (ih _ t m fun x hx => h x (by simp [hx])).trans ?_
    simp

theorem fold_paths : ∀ (ps : List (List Nat)) (r : FnRec) (t : List FnRec) (m : Option (List Char)),
    (∀ p ∈ ps, p ≠ []) → (ps.map fun p => 'p' :: join ' ' (p.map (Sample.printNum 10))).foldlM readLine1 ⟨r :: t, m⟩ =
      some ⟨{ r with paths := r.paths ++ ps } :: t, m⟩ := by
  intro ps
  induction ps with
  | nil => intro r t m _; simp
  | cons c cs ih =>
    intro r t m h
    rw [List.map_cons, List.foldlM_cons]
    have hs : (split ' ' (join ' ' (c.map (Sample.printNum 10)))).mapM readId = some c := by
      rw [split_join (by simpa using h c (by simp))]
      · exact mapM_print readId_print c
      · intro l hl
        obtain ⟨x, _, rfl⟩ := List.mem_map.1 hl
        exact digit_ne (by decide) x
    simp only [readLine1, hs, Option.bind_some, RState.last]
    refine (ih _ t m fun x hx => h x (by simp [hx])).trans ?_
    simp

theorem takeWhile_clean {s r : List Char} (h : ' ' ∉ s) (hr : ∀ c ∈ r.head?, c = ' ') :
    (s ++ r).takeWhile (fun c => !decide (c = ' ')) = s ∧ (s ++ r).dropWhile (fun c => !decide (c = ' ')) = r := by
  induction s with
  | nil =>
    cases r with
    | nil => simp
    | cons c t => have := hr c (by simp); subst this; simp
  | cons a s ih =>
    rw [List.mem_cons, not_or] at h
    have ha : a ≠ ' ' := fun e => h.1 e.symm
    obtain ⟨h1, h2⟩ := ih h.2
    simp [ha, h1, h2]

/-- The lines of a function are read as that function. -/
theorem readFn0 {r : FnRec} (h : Writable .v0 r) (st : RState) : ∃ ls, fnLines .v0 r = some ls ∧
    ls.foldlM readLine0 st = some { st with done := r :: st.done } := by
  obtain ⟨names, mod_, paths, clusters⟩ := r
  have hp := h.noPaths rfl
  simp only at hp
  subst hp
  refine ⟨_, by simp [fnLines]; rfl, ?_⟩
  have hjoin : ' ' ∉ join '/' names := by
    intro hm
    rcases mem_join hm with h' | ⟨l, hl, h'⟩
    · cases h'
    · exact (h.clean l hl).1 h'
  have hsp : split '/' (join '/' names) = names := split_join h.names fun l hl => (h.clean l hl).2.2 rfl
  have hmark : (join '/' names).head? ≠ some '!' := by
    cases hn : names with
    | nil => exact absurd hn h.names
    | cons a t =>
      have h1 := h.mark rfl a (by simp [hn])
      cases t with
      | nil => exact h1
      | cons b t =>
        rw [join, List.head?_append]
        cases ha : a.head? with
        | none => simp
        | some c => rw [ha] at h1; exact h1
  rw [List.foldlM_cons]
  have key : ∀ ext : List Char, (∀ c ∈ ext.head?, c = ' ') → ∀ x, (match ext with
      | ' ' :: 'M' :: '=' :: m => some { st with done := ⟨names, some m, [], []⟩ :: st.done }
      | [] => some { st with done := ⟨names, none, [], []⟩ :: st.done }
      | _ => none) = some x → readLine0 st ('!' :: (join '/' names ++ ext)) = some x := by
    intro ext hext x hx
    obtain ⟨t1, t2⟩ := takeWhile_clean hjoin hext
    rw [readLine0.eq_2]
    · simp only [t1, t2, hsp]
      exact hx
    · intro s hs
      cases hj : join '/' names with
      | nil =>
        rw [hj, List.nil_append] at hs
        rw [hs] at hext
        have := hext '!' (by simp)
        cases this
      | cons c t =>
        rw [hj] at hs hmark
        simp only [List.cons_append, List.cons.injEq] at hs
        rw [hs.1] at hmark
        exact hmark rfl
  have hcl : ∀ (m : Option (List Char)), (clusters.map (clusterLine .v0)).foldlM readLine0 ⟨⟨names, m, [], []⟩ :: st.done, st.mod_⟩ =
      some ⟨⟨names, m, [], clusters⟩ :: st.done, st.mod_⟩ := by
    intro m
    refine (fold_clusters (v := .v0) ?_ clusters _ _ _ h.clusters).trans (by simp)
    intro st bs hbs
    unfold clusterLine
    rw [if_neg hbs]
    change readLine0 st ('!' :: '!' :: join ' ' (bs.map blockText)) = _
    rw [readLine0, split_blocks hbs, Option.bind_some]
  cases mod_ with
  | none =>
    refine Eq.trans (congrArg (fun o : Option RState => o.bind fun init => (clusters.map (clusterLine .v0)).foldlM readLine0 init)
      (key [] (by simp) _ rfl)) ?_
    exact hcl none
  | some m =>
    refine Eq.trans (congrArg (fun o : Option RState => o.bind fun init => (clusters.map (clusterLine .v0)).foldlM readLine0 init)
      (key (" M=".toList ++ m) (by simp) ⟨⟨names, some m, [], []⟩ :: st.done, st.mod_⟩ rfl)) ?_
    exact hcl (some m)

theorem readFn1 {r : FnRec} (h : Writable .v1 r) (st : RState) (hm : st.mod_ = none) : ∃ ls, fnLines .v1 r = some ls ∧
    ls.foldlM readLine1 st = some { st with done := r :: st.done } := by
  obtain ⟨names, mod_, paths, clusters⟩ := r
  obtain ⟨done, m0⟩ := st
  simp only at hm
  subst hm
  refine ⟨_, rfl, ?_⟩
  have hsp : split ' ' (join ' ' names) = names := split_join h.names fun l hl => (h.clean l hl).1
  have hf : ∀ m : Option (List Char), readLine1 ⟨done, m⟩ ("f ".toList ++ join ' ' names) = some ⟨⟨names, m, [], []⟩ :: done, none⟩ := by
    intro m
    change readLine1 ⟨done, m⟩ ('f' :: ' ' :: join ' ' names) = _
    rw [readLine1, hsp]
  have hrest : ∀ m : Option (List Char), (paths.map (fun p => 'p' :: join ' ' (p.map (Sample.printNum 10))) ++
      clusters.map (clusterLine .v1)).foldlM readLine1 ⟨⟨names, m, [], []⟩ :: done, none⟩ = some ⟨⟨names, m, paths, clusters⟩ :: done, none⟩ := by
    intro m
    rw [List.foldlM_append, fold_paths _ _ _ _ h.paths]
    refine (fold_clusters (v := .v1) ?_ clusters _ _ _ h.clusters).trans (by simp)
    intro st bs hbs
    unfold clusterLine
    rw [if_neg hbs]
    change readLine1 st ('c' :: join ' ' (bs.map blockText)) = _
    rw [readLine1, split_blocks hbs, Option.bind_some]
  cases mod_ with
  | none =>
    rw [List.nil_append, List.append_assoc, List.singleton_append, List.foldlM_cons, hf none]
    exact hrest none
  | some m =>
    rw [List.append_assoc, List.append_assoc, List.singleton_append, List.foldlM_cons]
    have : readLine1 ⟨done, none⟩ ("m ".toList ++ m) = some ⟨done, some m⟩ := by
      change readLine1 ⟨done, none⟩ ('m' :: ' ' :: m) = _
      rw [readLine1]
    rw [this]
    refine Eq.trans (b := (("f ".toList ++ join ' ' names) :: (paths.map (fun (p : List Nat) => 'p' :: join ' ' (p.map (Sample.printNum 10))) ++
      clusters.map (clusterLine .v1))).foldlM readLine1 ⟨done, some m⟩) rfl ?_
    rw [List.foldlM_cons, hf (some m)]
    exact hrest (some m)

theorem lines_clean {v : Ver} {r : FnRec} (h : Writable v r) {ls : List (List Char)} (e : fnLines v r = some ls) : ∀ l ∈ ls, '\n' ∉ l := by
  have hnames : ∀ sep : Char, sep ≠ '\n' → '\n' ∉ join sep r.names := by
    intro sep hs hm
    rcases mem_join hm with h' | ⟨l, hl, h'⟩
    · exact hs h'.symm
    · exact (h.clean l hl).2.1 h'
  have hcl : ∀ v, ∀ c ∈ r.clusters, '\n' ∉ clusterLine v c := by
    intro v c _ hm
    unfold clusterLine at hm
    split at hm
    · cases hm
    · rcases List.mem_append.1 hm with hm | hm
      · cases v <;> exact absurd hm (by decide)
      · rcases mem_join hm with h' | ⟨l, hl, h'⟩
        · exact absurd h' (by decide)
        · obtain ⟨x, _, rfl⟩ := List.mem_map.1 hl
          exact blockText_clean x (by decide) (by decide) h'
  cases v with
  | v0 =>
    simp only [fnLines, h.noPaths rfl, ne_eq, not_true, if_false, Option.some.injEq] at e
    subst e
    intro l hl
    rcases List.mem_cons.1 hl with rfl | hl
    · intro hm
      rcases List.mem_append.1 hm with hm | hm
      · rcases List.mem_cons.1 hm with hm | hm
        · exact absurd hm (by decide)
        · exact hnames '/' (by decide) hm
      · cases hmod : r.module_ with
        | none => rw [hmod] at hm; cases hm
        | some m =>
          rw [hmod] at hm
          rcases List.mem_append.1 hm with hm | hm
          · exact absurd hm (by decide)
          · exact h.mod_ m hmod hm
    · obtain ⟨c, hc, rfl⟩ := List.mem_map.1 hl
      exact hcl _ c hc
  | v1 =>
    simp only [fnLines, Option.some.injEq] at e
    subst e
    intro l hl
    rcases List.mem_append.1 hl with hl | hl
    · rcases List.mem_append.1 hl with hl | hl
      · rcases List.mem_append.1 hl with hl | hl
        · cases hmod : r.module_ with
          | none => rw [hmod] at hl; cases hl
          | some m =>
            rw [hmod] at hl
            rw [List.mem_singleton] at hl
            subst hl
            intro hm
            rcases List.mem_append.1 hm with hm | hm
            · exact absurd hm (by decide)
            · exact h.mod_ m hmod hm
        · rw [List.mem_singleton] at hl
          subst hl
          intro hm
          rcases List.mem_append.1 hm with hm | hm
          · exact absurd hm (by decide)
          · exact hnames ' ' (by decide) hm
      · obtain ⟨p, _, rfl⟩ := List.mem_map.1 hl
        intro hm
        rcases List.mem_cons.1 hm with hm | hm
        · exact absurd hm (by decide)
        · rcases mem_join hm with h' | ⟨l, hl, h'⟩
          · exact absurd h' (by decide)
          · obtain ⟨x, _, rfl⟩ := List.mem_map.1 hl
            exact digit_ne (by decide) x h'
    · obtain ⟨c, hc, rfl⟩ := List.mem_map.1 hl
      exact hcl _ c hc

/-- **C52: the cluster file can be read back: whatever is written for a list of functions, both versions give exactly that
list.** -/
theorem readCc_ccText (v : Ver) (rs : List FnRec) (h : ∀ r ∈ rs, Writable v r) : ∃ s, ccText v rs = some s ∧ readCc s = some rs := by
  have key : ∀ (rd : RState → List Char → Option RState), (∀ r ∈ rs, ∀ st : RState, st.mod_ = none →
      ∃ ls, fnLines v r = some ls ∧ ls.foldlM rd st = some { st with done := r :: st.done }) →
      ∀ (l : List FnRec), (∀ r ∈ l, r ∈ rs) → ∃ ls, gather (fnLines v) l = some ls ∧ (∀ x ∈ ls, '\n' ∉ x) ∧ ∀ st : RState, st.mod_ = none →
        ls.foldlM rd st = some { st with done := l.reverse ++ st.done } := by
    intro rd hrd l
    induction l with
    | nil => intro _; exact ⟨[], rfl, by simp, fun st _ => by simp⟩
    | cons r t ih =>
      intro hl
      obtain ⟨lt, et, ct, ht⟩ := ih fun x hx => hl x (by simp [hx])
      obtain ⟨lr, er, _⟩ := hrd r (hl r (by simp)) {} rfl
      refine ⟨lr ++ lt, by rw [gather, er, Option.bind_some, et, Option.map_some], ?_, ?_⟩
      · intro x hx
        rcases List.mem_append.1 hx with hx | hx
        · exact lines_clean (h r (hl r (by simp))) er x hx
        · exact ct x hx
      · intro st hst
        obtain ⟨lr', er', hr⟩ := hrd r (hl r (by simp)) st hst
        rw [er] at er'; cases er'
        rw [List.foldlM_append, hr]
        refine (ht _ (by simpa using hst)).trans ?_
        simp
  unfold ccText
  cases v with
  | v0 =>
    obtain ⟨ls, e, hc, hrd⟩ := key readLine0 (fun r hr st _ => readFn0 (h r hr) st) rs fun _ h => h
    rw [e, Option.map_some]
    refine ⟨_, rfl, ?_⟩
    unfold readCc
    rw [List.nil_append, split_lines hc, List.dropLast_concat]
    have hr := hrd {} rfl
    have hnv : ∀ ls', ls ≠ ['v', '1'] :: ls' := by
      rintro ls' rfl
      simp [readLine0] at hr
    split
    · exact absurd rfl (hnv _)
    · rw [hr]; simp
  | v1 =>
    obtain ⟨ls, e, hc, hrd⟩ := key readLine1 (fun r hr st hst => readFn1 (h r hr) st hst) rs fun _ h => h
    rw [e, Option.map_some]
    refine ⟨_, rfl, ?_⟩
    unfold readCc
    rw [split_lines (by
      intro l hl
      rcases List.mem_append.1 hl with hl | hl
      · rw [List.mem_singleton] at hl; subst hl; decide
      · exact hc l hl), List.dropLast_concat]
    change (ls.foldlM readLine1 {}).map (fun st => st.done.reverse) = some rs
    rw [hrd {} rfl]; simp

/-! ### Examples -/

def exRecs : List FnRec := [⟨["f".toList, "f2".toList], some "a b".toList, [[1, 20], [3]], [[(0, 0), (12, 0), (3, 2)], [(7, 0)]]⟩,
  ⟨["g".toList], none, [], [[(0, 0)]]⟩]

example : ∀ r ∈ exRecs, Writable .v1 r := by
  intro r hr
  simp only [exRecs, List.mem_cons, List.not_mem_nil, or_false] at hr
  rcases hr with rfl | rfl <;> exact ⟨by decide, by decide, by decide, by decide, by decide, by decide, by decide⟩
example : (ccText .v1 exRecs).map String.ofList = some "v1\nm a b\nf f f2\np1 20\np3\nc0 12 3.2\nc7\nf g\nc0\n" := by decide +kernel
example : (ccText .v0 exRecs) = none := by decide +kernel
example : (ccText .v0 [⟨["f".toList, "f2".toList], some "a b".toList, [], [[(0, 0), (12, 0), (3, 2)], [(7, 0)]]⟩]).map String.ofList = some "!f/f2 M=a b\n!!0 12 3.2\n!!7\n" := by decide +kernel

end Verif.Layout
