import Verif.Cleanup
import Verif.InlineHandler

/-! # C103: subprograms with code are marked as used while the unit is read (util/symbolize/addr2line_inlinestack.cc:188-243) -/
namespace Verif.Cleanup
open Verif Verif.Inline Verif.InlineHandler Verif.DwarfInfo

/-- The subprograms in the insert order are used. -/
structure Marked (s : St) : Prop where
  stack : ∀ i ∈ s.stack, i < s.heap.length
  order : ∀ i ∈ s.order, ∃ c, s.heap[i]? = some c ∧ c.used = true

theorem Marked.same {s t : St} (h : Marked s) (h1 : t.stack = s.stack) (h2 : t.heap = s.heap) (h3 : t.order = s.order) : Marked t :=
  ⟨by rw [h1, h2]; exact h.stack, by rw [h2, h3]; exact h.order⟩

theorem marked_modify {s : St} (h : Marked s) (i : Nat) (f : Cell → Cell) (hf : ∀ c, s.heap[i]? = some c → c.used = true → (f c).used = true) :
    Marked { s with heap := s.heap.modify i f } := by
  refine ⟨fun j hj => by simpa using h.stack j hj, fun j hj => ?_⟩
  obtain ⟨c, hc, hu⟩ := h.order j hj
  simp only [List.getElem?_modify, hc, Option.map_some]
  by_cases hij : i = j
  · subst hij
    exact ⟨f c, by simp, hf c hc hu⟩
  · exact ⟨c, by simp [hij], hu⟩

theorem marked_startUnit {s : St} (h : Marked s) {off v : Nat} {r : St × Bool} (hr : startUnit s off v = some r) : Marked r.1 := by
  unfold startUnit at hr
  split_ifs at hr
  cases hr
  exact h.same rfl rfl rfl

theorem marked_startDie {s : St} (h : Marked s) (off tag : Nat) : Marked (startDie s off tag).1 := by
  unfold startDie
  by_cases hf : isFn tag = true
  · simp only [hf, if_true]
    refine ⟨fun i hi => ?_, fun i hi => ?_⟩
    · rcases List.mem_cons.1 hi with rfl | hi
      · simp
      · have := h.stack i hi
        simp only [List.length_append]
        omega
    · obtain ⟨c, hc, hu⟩ := h.order i hi
      refine ⟨c, ?_, hu⟩
      rw [List.getElem?_append_left (List.getElem?_eq_some_iff.1 hc).1]
      exact hc
  · simp only [hf]
    exact h.same rfl rfl rfl

theorem marked_endDie {s t : St} (h : Marked s) (ht : endDie s = some t) : Marked t := by
  unfold endDie at ht
  cases hg : s.tags with
  | nil => rw [hg] at ht; cases ht
  | cons tag tags =>
    rw [hg] at ht
    simp only at ht
    by_cases hf : isFn tag = true
    · rw [if_pos hf] at ht
      cases hk : s.stack with
      | nil => rw [hk] at ht; cases ht
      | cons i st =>
        rw [hk] at ht
        simp only at ht
        have hi : i < s.heap.length := h.stack i (by rw [hk]; simp)
        have hst : ∀ j ∈ st, j < s.heap.length := fun j hj => h.stack j (by rw [hk]; exact List.mem_cons_of_mem _ hj)
        split_ifs at ht
        · cases ht
          refine ⟨fun j hj => by simpa using hst j hj, fun j hj => ?_⟩
          simp only [List.mem_append, List.mem_singleton] at hj
          rcases hj with hj | rfl
          · exact (marked_modify h i (fun c => { c with used := true }) (fun _ _ _ => rfl)).order j hj
          · exact ⟨{ s.heap[j] with used := true }, by simp [hi], rfl⟩
        · cases ht
          exact ⟨hst, h.order⟩
    · rw [if_neg hf] at ht
      cases ht
      exact h.same rfl rfl rfl

theorem used_cellStr {name : Nat} {v : Option Name} {c d : Cell} (h : cellStr name v c = some d) (hu : c.used = true) : d.used = true := by
  unfold cellStr at h
  split_ifs at h
  · cases v <;> cases h; exact hu
  · cases v <;> cases h; exact hu
  · cases h; exact hu

theorem used_cellFile (tab : LineMap.Tab) (k : Nat) (c : Cell) : (cellFile tab k c).used = c.used := by
  unfold cellFile
  split_ifs
  · rfl
  · cases tab.files[k]? <;> rfl

theorem used_cellS {tab : LineMap.Tab} {name form : Nat} {v : Int} {c d : Cell} (h : cellS tab name form v c = some d) (hu : c.used = true) : d.used = true := by
  unfold cellS at h
  split_ifs at h <;> cases h
  · exact hu
  · rw [used_cellFile]; exact hu
  · exact hu
  · exact hu

theorem used_cellU {env : Env} {s : St} {top : Bool} {tag name form v : Nat} {c d : Cell} (h : cellU env s top tag name form v c = some d)
    (hu : c.used = true) : d.used = true := by
  unfold cellU at h
  by_cases h1 : name = 0x58
  · rw [if_pos h1] at h; cases h; rw [used_cellFile]; exact hu
  rw [if_neg h1] at h
  by_cases h2 : name = 0x59
  · rw [if_pos h2] at h
    by_cases hf : form ∈ [0x0b, 0x05, 0x06]
    · rw [if_pos hf] at h; cases h; exact hu
    · rw [if_neg hf] at h; cases h
  rw [if_neg h2] at h
  by_cases h3 : name = 0x2136
  · rw [if_pos h3] at h
    by_cases hf : form ∈ [0x0b, 0x05, 0x06]
    · rw [if_pos hf] at h; cases h; exact hu
    · rw [if_neg hf] at h; cases h
  rw [if_neg h3] at h
  by_cases h4 : name = 0x31
  · rw [if_pos h4, Option.map_eq_some_iff] at h; obtain ⟨x, _, rfl⟩ := h; exact hu
  rw [if_neg h4] at h
  by_cases h5 : name = 0x47
  · rw [if_pos h5, Option.map_eq_some_iff] at h; obtain ⟨x, _, rfl⟩ := h; exact hu
  rw [if_neg h5] at h
  by_cases h6 : name = 0x11
  · rw [if_pos h6, Option.map_eq_some_iff] at h; obtain ⟨x, _, rfl⟩ := h; rw [hu]; rfl
  rw [if_neg h6] at h
  by_cases h7 : name = 0x12
  · rw [if_pos h7, Option.map_eq_some_iff] at h; obtain ⟨x, _, rfl⟩ := h; exact hu
  rw [if_neg h7] at h
  by_cases h8 : name = 0x55
  · rw [if_pos h8] at h
    by_cases hr : c.sub.ranges.isEmpty = true
    · rw [if_pos hr, Option.map_eq_some_iff] at h; obtain ⟨x, _, rfl⟩ := h; rw [hu]; rfl
    · rw [if_neg hr] at h; cases h
  rw [if_neg h8] at h
  by_cases h9 : name = 0x3b
  · rw [if_pos h9] at h
    by_cases ht : tag = 0x2e
    · rw [if_pos ht] at h; cases h; exact hu
    · rw [if_neg ht] at h; cases h; exact hu
  rw [if_neg h9] at h
  cases h
  exact hu

theorem marked_onTop {s t : St} (h : Marked s) (i : Nat) (f : Cell → Option Cell) (hf : ∀ c d, f c = some d → c.used = true → d.used = true)
    (ht : onTop s i f = some t) : Marked t := by
  unfold onTop at ht
  simp only [Option.bind_eq_bind, Option.bind_eq_some_iff, Option.some.injEq] at ht
  obtain ⟨c, hc, d, hd, rfl⟩ := ht
  exact marked_modify h i _ (fun c' hc' hu => by
    rw [hc] at hc'
    cases hc'
    exact hf c d hd hu)

theorem marked_attrU {env : Env} {s t : St} {name form v : Nat} (h : Marked s) (ht : attrU env s name form v = some t) : Marked t := by
  unfold attrU at ht
  split at ht
  · split_ifs at ht
    · cases ht; exact h.same rfl rfl rfl
    · cases ht; exact h.same rfl rfl rfl
    · exact marked_onTop h _ _ (fun _ _ => used_cellU) ht
  · split_ifs at ht
    · unfold cuU at ht
      split_ifs at ht <;> first
        | (cases ht; exact h.same rfl rfl rfl)
        | (simp only [Option.bind_eq_bind, Option.bind_eq_some_iff, Option.some.injEq] at ht
           obtain ⟨_, _, _, _, rfl⟩ := ht
           exact h.same rfl rfl rfl)
    · cases ht; exact h

theorem marked_attrStr {s t : St} {name : Nat} {v : Option Name} (h : Marked s) (ht : attrStr s name v = some t) : Marked t := by
  unfold attrStr at ht
  simp only at ht
  split at ht
  · cases ht
  · rename_i s' hs'
    have hm : Marked s' := by
      split_ifs at hs'
      · rw [Option.map_eq_some_iff] at hs'
        obtain ⟨_, _, rfl⟩ := hs'
        exact h.same rfl rfl rfl
      · cases hs'; exact h
    split at ht
    · cases ht; exact hm
    · exact marked_onTop hm _ _ (fun _ _ => used_cellStr) ht

theorem marked_attrS {s t : St} {name form : Nat} {v : Int} (h : Marked s) (ht : attrS s name form v = some t) : Marked t := by
  unfold attrS at ht
  split_ifs at ht
  · split at ht
    · cases ht
    · exact marked_onTop h _ _ (fun _ _ => used_cellS) ht
  · cases ht; exact h

/-- While debug information is read, in any order of entries and attributes, every subprogram in the insert order is marked as used: what
    `endSplit_stack` asks for. -/
theorem marked_handler (env : Env) {s : St} (h : Marked s) :
    (∀ off a b c v r, (handler env).startUnit s off a b c v = some r → Marked r.1) ∧
    (∀ off tag as r, (handler env).startDie s off tag as = some r → Marked r.1) ∧
    (∀ off name form v t, (handler env).attr s off name form v = some t → Marked t) ∧
    (∀ off t, (handler env).endDie s off = some t → Marked t) ∧
    (∀ b, Marked ((handler env).setStrBase s b)) ∧ (∀ b, Marked ((handler env).setAddrBase s b)) := by
  refine ⟨fun off a b c v r hr => marked_startUnit h hr, ?_, ?_, fun off t ht => marked_endDie h ht, fun b => h.same rfl rfl rfl, fun b => h.same rfl rfl rfl⟩
  · intro off tag as r hr
    cases hr
    exact marked_startDie h off tag
  · intro off name form v t ht
    cases v with
    | u v => exact marked_attrU h ht
    | s v => exact marked_attrS h ht
    | str v => exact marked_attrStr h ht
    | block v => cases ht; exact h

theorem marked_init : Marked {} := ⟨by simp, by simp⟩

end Verif.Cleanup
