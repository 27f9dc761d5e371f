import Mathlib.Data.List.Basic
import Mathlib.Data.List.Nodup

/-!
Where the layout keeps, for each block, the bundle it is in and its offset there: one table for all the blocks of the
functions being laid out, and the index of each block in that table (llvm_propeller_node_chain.h 339-408,
llvm_propeller_node_chain.cc 33-76 and 269-278).
-/

namespace Verif.BundleMap

/-- A block, as the table sees it: `CFGNode::function_index()` and `CFGNode::node_index()`. -/
structure Node where
  func : Nat
  index : Nat
deriving DecidableEq, Repr

/-- A function's graph, as the table sees it: its index and the number of its blocks, clones included. Block number
`i` of the graph has `node_index()` `i`: the `bb_index` of an original block, the count of blocks so far for a clone (CfgOps). -/
structure Cfg where
  func : Nat
  size : Nat
deriving DecidableEq, Repr

/-- `BundleMappingEntry`, node_chain.h 343-353. `bundle` stands for the pointer, `none` for `nullptr`. -/
structure Entry where
  bundle : Option Nat := none
  offset : Int := 0
deriving DecidableEq, Repr

/-- `base_index_by_function_index[f] = v`, and `.at(f)`. -/
def upsert (m : List (Nat × Nat)) (f v : Nat) : List (Nat × Nat) :=
  if m.any (fun e => e.1 == f) then m.map (fun e => if e.1 = f then (f, v) else e) else m ++ [(f, v)]

def at? (m : List (Nat × Nat)) (f : Nat) : Option Nat := (m.find? (fun e => e.1 == f)).map Prod.snd

/-- `GetBaseOrdinalByFunctionIndex`, node_chain.cc 33-43: the running sum. `int` is taken as unbounded: the total number of
blocks is assumed to be below 2^31. -/
def bases (cs : List Cfg) : List (Nat × Nat) × Nat :=
  cs.foldl (fun p c => (upsert p.1 c.func p.2, p.2 + c.size)) ([], 0)

/-- `NodeToBundleMapper`: `base` is `none` for the `SingleCfgNodeToBundleMapper` (node_chain.cc 47-56) and the bases for the
`MultiCfgNodeToBundleMapper` (60-76); `table` is `node_bundle_mapping_`. -/
structure Mapper where
  base : Option (List (Nat × Nat))
  table : List Entry
deriving DecidableEq, Repr

/-- `CreateNodeToBundleMapper`, node_chain.cc 269-278. -/
def create (cs : List Cfg) : Mapper :=
  match cs with
  | [c] => ⟨none, List.replicate c.size {}⟩
  | _ => ⟨some (bases cs).1, List.replicate (bases cs).2 {}⟩

/-- `GetNodeIndex`, node_chain.cc 53-55 and 67-70. `none`: `.at` throws. -/
def nodeIndex (m : Mapper) (n : Node) : Option Nat :=
  match m.base with
  | none => some n.index
  | some b => (at? b n.func).map (n.index + ·)

/-- `GetBundleMappingEntry(node)`, node_chain.h 371-377. `none`: the code throws or reads outside the vector. -/
def get (m : Mapper) (n : Node) : Option Entry := (nodeIndex m n).bind fun i => m.table[i]?

/-- `SetBundleMappingEntry`, node_chain.h 390-394. -/
def set (m : Mapper) (n : Node) (e : Entry) : Option Mapper :=
  (nodeIndex m n).bind fun i => if i < m.table.length then some { m with table := m.table.set i e } else none

/-- `AdjustBundleMappingEntry`, node_chain.h 399-405. -/
def adjust (m : Mapper) (n : Node) (e : Entry) : Option Mapper :=
  (nodeIndex m n).bind fun i =>
    (m.table[i]?).map fun c => { m with table := m.table.set i { bundle := e.bundle, offset := c.offset + e.offset } }

/-- What the builder does to the table. -/
inductive Op
  | set (n : Node) (e : Entry)
  | adjust (n : Node) (e : Entry)
deriving DecidableEq, Repr

def step (m : Mapper) : Op → Option Mapper
  | .set n e => set m n e
  | .adjust n e => adjust m n e

def run (m : Mapper) (ops : List Op) : Option Mapper := ops.foldlM step m

/-! ## The specification -/

/-- The block an operation is for. -/
def Op.node : Op → Node
  | .set n _ => n
  | .adjust n _ => n

/-- What one block's own entry should become. -/
def Op.apply (cur : Entry) : Op → Entry
  | .set _ e => e
  | .adjust _ e => ⟨e.bundle, cur.offset + e.offset⟩

/-- What block `n`'s entry should be after `ops`: only the operations for `n` itself matter. -/
def entryOf (ops : List Op) (n : Node) : Entry := (ops.filter fun o => decide (o.node = n)).foldl Op.apply {}

/-- `n` is a block of one of the functions. -/
def IsNode (cs : List Cfg) (n : Node) : Prop := ∃ c ∈ cs, n.func = c.func ∧ n.index < c.size

/-! ## Proofs -/

theorem at?_append_self (m : List (Nat × Nat)) (f v : Nat) (h : ∀ e ∈ m, e.1 ≠ f) : at? (upsert m f v) f = some v := by
  have : m.any (fun e => e.1 == f) = false := by
    rw [List.any_eq_false]; intro e he; simpa using h e he
  have hn : m.find? (fun e => e.1 == f) = none := by
    rw [List.find?_eq_none]; intro e he; simpa using h e he
  simp [at?, upsert, this, List.find?_append, hn]

theorem at?_append_ne (m : List (Nat × Nat)) (f g v : Nat) (h : ∀ e ∈ m, e.1 ≠ f) (hg : g ≠ f) :
    at? (upsert m f v) g = at? m g := by
  have : m.any (fun e => e.1 == f) = false := by
    rw [List.any_eq_false]; intro e he; simpa using h e he
  have hb : (f == g) = false := by simpa using fun h => hg h.symm
  simp [at?, upsert, this, List.find?_append, List.find?_cons, hb]

theorem upsert_keys (m : List (Nat × Nat)) (f v : Nat) (h : ∀ e ∈ m, e.1 ≠ f) :
    (upsert m f v).map Prod.fst = m.map Prod.fst ++ [f] := by
  have : m.any (fun e => e.1 == f) = false := by
    rw [List.any_eq_false]; intro e he; simpa using h e he
  simp [upsert, this]

/-- The base of the function `f`: the number of blocks of the functions before it. -/
def before : List Cfg → Nat → Nat
  | [], _ => 0
  | c :: cs, f => if c.func = f then 0 else c.size + before cs f

def total (cs : List Cfg) : Nat := (cs.map Cfg.size).sum

theorem bases_go : ∀ (cs : List Cfg) (m : List (Nat × Nat)) (t : Nat), (cs.map Cfg.func).Nodup →
    (∀ c ∈ cs, ∀ e ∈ m, e.1 ≠ c.func) →
    let r := cs.foldl (fun p c => (upsert p.1 c.func p.2, p.2 + c.size)) (m, t)
    r.2 = t + total cs ∧ (∀ f, f ∉ cs.map Cfg.func → at? r.1 f = at? m f) ∧
      ∀ f ∈ cs.map Cfg.func, at? r.1 f = some (t + before cs f) := by
  intro cs
  induction cs with
  | nil => intro m t _ _; simp [total]
  | cons c cs ih =>
    intro m t hd hm
    rw [List.map_cons, List.nodup_cons] at hd
    have hm' : ∀ d ∈ cs, ∀ e ∈ upsert m c.func t, e.1 ≠ d.func := by
      intro d hd' e he
      have hk : e.1 ∈ (upsert m c.func t).map Prod.fst := List.mem_map_of_mem he
      rw [upsert_keys m _ _ (hm c (by simp))] at hk
      rcases List.mem_append.1 hk with hk | hk
      · obtain ⟨e', he', hq⟩ := List.mem_map.1 hk
        rw [← hq]; exact hm d (by simp [hd']) e' he'
      · rw [List.mem_singleton] at hk
        rw [hk]; intro hc; exact hd.1 (List.mem_map.2 ⟨d, hd', hc.symm⟩)
    obtain ⟨h1, h2, h3⟩ := ih (upsert m c.func t) (t + c.size) hd.2 hm'
    simp only [List.foldl_cons]
    refine ⟨?_, ?_, ?_⟩
    · rw [h1]; simp [total]; omega
    · intro f hf
      rw [List.map_cons, List.mem_cons, not_or] at hf
      rw [h2 f hf.2, at?_append_ne m c.func f t (hm c (by simp)) hf.1]
    · intro f hf
      by_cases hfc : c.func = f
      · subst hfc
        rw [h2 _ hd.1, at?_append_self m _ _ (hm c (by simp))]
        simp [before]
      · have : f ∈ cs.map Cfg.func := by
          rw [List.map_cons, List.mem_cons] at hf
          exact hf.resolve_left fun h => hfc h.symm
        rw [h3 f this]; simp [before, hfc]; omega

theorem before_lt : ∀ {cs : List Cfg} {c : Cfg}, (cs.map Cfg.func).Nodup → c ∈ cs → before cs c.func + c.size ≤ total cs := by
  intro cs
  induction cs with
  | nil => intro c _ h; simp at h
  | cons d cs ih =>
    intro c hd hc
    rw [List.map_cons, List.nodup_cons] at hd
    rcases List.mem_cons.1 hc with rfl | hc
    · simp [before, total]
    · have hne : d.func ≠ c.func := fun h => hd.1 (List.mem_map.2 ⟨c, hc, h.symm⟩)
      have := ih hd.2 hc
      simp only [total] at this
      simp [before, hne, total]; omega

theorem before_disjoint : ∀ {cs : List Cfg} {c d : Cfg}, (cs.map Cfg.func).Nodup → c ∈ cs → d ∈ cs → c.func ≠ d.func →
    before cs c.func + c.size ≤ before cs d.func ∨ before cs d.func + d.size ≤ before cs c.func := by
  intro cs
  induction cs with
  | nil => intro c d _ h; simp at h
  | cons a cs ih =>
    intro c d hn hc hd hne
    rw [List.map_cons, List.nodup_cons] at hn
    rcases List.mem_cons.1 hc with rfl | hc
    · left; simp [before, hne]
    · have hca : a.func ≠ c.func := fun h => hn.1 (List.mem_map.2 ⟨c, hc, h.symm⟩)
      rcases List.mem_cons.1 hd with rfl | hd
      · right; simp [before, hca]
      · have hda : a.func ≠ d.func := fun h => hn.1 (List.mem_map.2 ⟨d, hd, h.symm⟩)
        rcases ih hn.2 hc hd hne with h | h
        · left; simp [before, hca, hda]; omega
        · right; simp [before, hca, hda]; omega

theorem cfg_unique {cs : List Cfg} (h : (cs.map Cfg.func).Nodup) {c d : Cfg} (hc : c ∈ cs) (hd : d ∈ cs) (he : c.func = d.func) :
    c = d := by
  exact List.inj_on_of_nodup_map h hc hd he

/-- The index of each block is inside the table, and no two blocks have the same. -/
structure IndexOk (cs : List Cfg) (m : Mapper) : Prop where
  inside : ∀ n, IsNode cs n → ∃ i, nodeIndex m n = some i ∧ i < m.table.length
  inj : ∀ n n', IsNode cs n → IsNode cs n' → nodeIndex m n = nodeIndex m n' → n = n'

theorem create_ok (cs : List Cfg) (h : (cs.map Cfg.func).Nodup) : IndexOk cs (create cs) := by
  by_cases h1 : ∃ c, cs = [c]
  · obtain ⟨c, rfl⟩ := h1
    refine ⟨?_, ?_⟩
    · rintro n ⟨d, hd, hf, hi⟩
      rw [List.mem_singleton] at hd; subst hd
      exact ⟨n.index, rfl, by simpa [create] using hi⟩
    · rintro n n' ⟨d, hd, hf, hi⟩ ⟨d', hd', hf', hi'⟩ he
      rw [List.mem_singleton] at hd hd'; subst hd; subst hd'
      have : n.index = n'.index := by simpa [nodeIndex, create] using he
      cases n; cases n'; simp_all
  · have hc : create cs = ⟨some (bases cs).1, List.replicate (bases cs).2 {}⟩ := by
      match cs, h1 with
      | [], _ => rfl
      | [c], h1 => exact absurd ⟨c, rfl⟩ h1
      | _ :: _ :: _, _ => rfl
    obtain ⟨h2, h3, h4⟩ := bases_go cs [] 0 h (by simp)
    have hidx : ∀ n d, d ∈ cs → n.func = d.func → nodeIndex (create cs) n = some (n.index + before cs d.func) := by
      intro n d hd hf
      have := h4 d.func (List.mem_map_of_mem hd)
      rw [hc]
      simp only [nodeIndex, bases, hf]
      rw [this]; simp
    refine ⟨?_, ?_⟩
    · rintro n ⟨d, hd, hf, hi⟩
      refine ⟨_, hidx n d hd hf, ?_⟩
      have := before_lt h hd
      have h2' : (bases cs).2 = total cs := by simpa [bases] using h2
      simp only [hc, List.length_replicate, h2']
      omega
    · rintro n n' ⟨d, hd, hf, hi⟩ ⟨d', hd', hf', hi'⟩ he
      rw [hidx n d hd hf, hidx n' d' hd' hf', Option.some.injEq] at he
      by_cases hff : d.func = d'.func
      · have := cfg_unique h hd hd' hff
        subst this
        have : n.index = n'.index := by omega
        cases n; cases n'; simp_all
      · rcases before_disjoint h hd hd' hff with hb | hb <;> omega

theorem nodeIndex_table (m : Mapper) (t : List Entry) (n : Node) : nodeIndex { m with table := t } n = nodeIndex m n := rfl

/-- One operation changes its own block's entry and no other. -/
theorem step_ok {cs : List Cfg} {m : Mapper} (h : IndexOk cs m) (o : Op) (ho : IsNode cs o.node) :
    ∃ m', step m o = some m' ∧ IndexOk cs m' ∧
      (∀ n, IsNode cs n → ∀ e, get m n = some e → get m' n = some (if o.node = n then o.apply e else e)) := by
  have key : ∀ (x i : _), nodeIndex m o.node = some i → i < m.table.length →
      (∀ e, m.table[i]? = some e → x = o.apply e) →
      IndexOk cs { m with table := m.table.set i x } ∧
      (∀ n, IsNode cs n → ∀ e, get m n = some e →
        get { m with table := m.table.set i x } n = some (if o.node = n then o.apply e else e)) := by
    intro x i hi hl hx
    refine ⟨⟨fun n hn => ?_, fun n n' hn hn' he => h.inj n n' hn hn' (by simpa [nodeIndex_table] using he)⟩, ?_⟩
    · obtain ⟨j, hj, hjl⟩ := h.inside n hn
      exact ⟨j, by rw [nodeIndex_table, hj], by simpa using hjl⟩
    · intro n hn e he
      obtain ⟨j, hj, hjl⟩ := h.inside n hn
      have hge : m.table[j]? = some e := by simpa [get, hj] using he
      simp only [get, nodeIndex_table, hj, Option.bind_some]
      by_cases hon : o.node = n
      · subst hon
        rw [hi, Option.some.injEq] at hj; subst hj
        rw [if_pos rfl, List.getElem?_set_self hl, hx e hge]
      · rw [if_neg hon, List.getElem?_set_ne, hge]
        intro hij
        exact hon (h.inj _ _ ho hn (by rw [hi, hj, hij]))
  obtain ⟨i, hi, hl⟩ := h.inside o.node ho
  cases o with
  | set n e =>
    have hi' : nodeIndex m n = some i := hi
    exact ⟨_, by simp [step, set, hi', hl], key e i hi hl (by intros; rfl)⟩
  | adjust n e =>
    have hi' : nodeIndex m n = some i := hi
    have hg : m.table[i]? = some m.table[i] := List.getElem?_eq_getElem hl
    refine ⟨_, ?_, key ⟨e.bundle, m.table[i].offset + e.offset⟩ i hi hl ?_⟩
    · simp only [step, adjust, hi', Option.bind_some, hg, Option.map_some]
    · intro c hc; rw [hg, Option.some.injEq] at hc; rw [← hc]; rfl

theorem run_ok {cs : List Cfg} : ∀ (ops : List Op) (m : Mapper), IndexOk cs m → (∀ o ∈ ops, IsNode cs o.node) →
    ∃ m', run m ops = some m' ∧ IndexOk cs m' ∧ ∀ n, IsNode cs n → ∀ e, get m n = some e →
      get m' n = some ((ops.filter fun o => decide (o.node = n)).foldl Op.apply e) := by
  intro ops
  induction ops with
  | nil => intro m h _; exact ⟨m, rfl, h, fun n _ e he => by simpa using he⟩
  | cons o ops ih =>
    intro m h ho
    obtain ⟨m1, hs, h1, hg1⟩ := step_ok h o (ho o (by simp))
    obtain ⟨m2, hr, h2, hg2⟩ := ih m1 h1 (fun o' h' => ho o' (by simp [h']))
    refine ⟨m2, by simp only [run, List.foldlM_cons, hs]; exact hr, h2, fun n hn e he => ?_⟩
    rw [hg2 n hn _ (hg1 n hn e he)]
    by_cases hon : o.node = n <;> simp [hon]

/-! ## The property -/

/-- **C104.** For functions with distinct indices, whatever the builder does to the entries of their blocks, it never reads
or writes outside the table, and each block's entry is what the operations for that very block made it: an operation for one
block never shows in another's entry. -/
theorem table_spec (cs : List Cfg) (hd : (cs.map Cfg.func).Nodup) (ops : List Op) (ho : ∀ o ∈ ops, IsNode cs o.node) :
    ∃ m, run (create cs) ops = some m ∧ ∀ n, IsNode cs n → get m n = some (entryOf ops n) := by
  obtain ⟨m, hr, hm, hg⟩ := run_ok ops (create cs) (create_ok cs hd) ho
  refine ⟨m, hr, fun n hn => hg n hn {} ?_⟩
  obtain ⟨i, hi, hl⟩ := (create_ok cs hd).inside n hn
  have hall : ∀ e ∈ (create cs).table, e = {} := by
    unfold create; split <;> simp_all
  simp only [get, hi, Option.bind_some]
  rw [List.getElem?_eq_getElem hl, hall _ (List.getElem_mem hl)]

/-- The table has no more entries than there are blocks, and every entry is some block's: the indices are exactly the numbers
below the number of blocks. -/
theorem table_tight (cs : List Cfg) (hd : (cs.map Cfg.func).Nodup) : (create cs).table.length = (cs.map Cfg.size).sum := by
  by_cases h1 : ∃ c, cs = [c]
  · obtain ⟨c, rfl⟩ := h1; simp [create]
  · have hc : create cs = ⟨some (bases cs).1, List.replicate (bases cs).2 {}⟩ := by
      match cs, h1 with
      | [], _ => rfl
      | [c], h1 => exact absurd ⟨c, rfl⟩ h1
      | _ :: _ :: _, _ => rfl
    obtain ⟨h2, -, -⟩ := bases_go cs [] 0 hd (by simp)
    have h2' : (bases cs).2 = total cs := by simpa [bases] using h2
    rw [hc, List.length_replicate, h2', total]

/-- Three functions, the second with no block: the blocks of the first and third keep their own entries. -/
example : (([⟨7, 2⟩, ⟨3, 0⟩, ⟨5, 3⟩] : List Cfg).map Cfg.func).Nodup ∧
    (∀ o ∈ ([.set ⟨7, 1⟩ ⟨some 1, 0⟩, .set ⟨5, 0⟩ ⟨some 2, 4⟩, .adjust ⟨5, 0⟩ ⟨some 1, 10⟩, .set ⟨5, 2⟩ ⟨some 3, 0⟩] : List Op),
      IsNode [⟨7, 2⟩, ⟨3, 0⟩, ⟨5, 3⟩] o.node) ∧
    ((run (create [⟨7, 2⟩, ⟨3, 0⟩, ⟨5, 3⟩])
      [.set ⟨7, 1⟩ ⟨some 1, 0⟩, .set ⟨5, 0⟩ ⟨some 2, 4⟩, .adjust ⟨5, 0⟩ ⟨some 1, 10⟩, .set ⟨5, 2⟩ ⟨some 3, 0⟩]).bind
        fun m => get m ⟨5, 0⟩) = some ⟨some 1, 14⟩ := by
  refine ⟨by decide, ?_, by decide +kernel⟩
  intro o ho
  simp only [List.mem_cons, List.not_mem_nil, or_false] at ho
  rcases ho with rfl | rfl | rfl | rfl
  · exact ⟨⟨7, 2⟩, by simp, rfl, by decide⟩
  · exact ⟨⟨5, 3⟩, by simp, rfl, by decide⟩
  · exact ⟨⟨5, 3⟩, by simp, rfl, by decide⟩
  · exact ⟨⟨5, 3⟩, by simp, rfl, by decide⟩

/-- With one function the function index is not looked at: a block of another function is given this one's entry, or one past
the end of the table; with several, the same lookup throws. -/
theorem foreign_violated :
    get (create [⟨7, 2⟩]) ⟨9, 1⟩ = some {} ∧ get (create [⟨7, 2⟩]) ⟨9, 2⟩ = none ∧
    nodeIndex (create [⟨7, 2⟩]) ⟨9, 1⟩ = nodeIndex (create [⟨7, 2⟩]) ⟨7, 1⟩ ∧
    nodeIndex (create [⟨7, 2⟩, ⟨3, 1⟩]) ⟨9, 1⟩ = none := by decide +kernel

/-- The function indices have to be distinct: given twice, both graphs' blocks share the later one's entries, and the earlier
ones' go unused. -/
theorem distinct_needed : nodeIndex (create [⟨7, 2⟩, ⟨7, 2⟩]) ⟨7, 0⟩ = some 2 ∧
    (create [⟨7, 2⟩, ⟨7, 2⟩]).table.length = 4 := by decide +kernel

/-- A node index not below its graph's size reaches into the next function's entries. -/
theorem overrun_shares : nodeIndex (create [⟨7, 2⟩, ⟨3, 2⟩]) ⟨7, 2⟩ = nodeIndex (create [⟨7, 2⟩, ⟨3, 2⟩]) ⟨3, 0⟩ := by
  decide +kernel

end Verif.BundleMap
