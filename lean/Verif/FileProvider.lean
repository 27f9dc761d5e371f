import Mathlib.Tactic.ByContra

/-! # C43, C47: perf file provider (llvm_propeller_file_perf_data_provider.{cc,h})

The file reader is the environment: each read of a file succeeds with contents or fails, decided per
attempt by an arbitrary function of the attempt number. -/
namespace Verif.FileProvider

variable {Buf Err : Type}

/-- `FilePerfDataProvider` state (file_perf_data_provider.h:92-98): the names and `index_`.  The reader
`rd t f` is the result of the `t`-th read attempt on file `f`; `time` counts attempts. -/
structure Provider where
  files : List Nat
  index : Nat
  time : Nat

/-- Outcome of a call: an error, the end, or (position, file, contents); the position is what
the description `[index+1/n] name` shows. -/
inductive Res (Buf Err : Type) where
  | err (e : Err)
  | done
  | buf (pos : Nat) (file : Nat) (b : Buf)

/-- `GetNext` (file_perf_data_provider.cc:19-33): the index advances only after a successful read. -/
def getNext (rd : Nat → Nat → Except Err Buf) (p : Provider) : Res Buf Err × Provider :=
  match p.files[p.index]? with
  | none => (.done, p)
  | some f =>
    match rd p.time f with
    | .error e => (.err e, { p with time := p.time + 1 })
    | .ok b => (.buf p.index f b, { p with index := p.index + 1, time := p.time + 1 })

/-- `n` calls of `GetNext`. -/
def calls (rd : Nat → Nat → Except Err Buf) : Nat → Provider → List (Res Buf Err) × Provider
  | 0, p => ([], p)
  | n + 1, p =>
    let (r, p') := getNext rd p
    let (rs, p'') := calls rd n p'
    (r :: rs, p'')

/-- The (position, file) of the delivered buffers. -/
def delivered (rs : List (Res Buf Err)) : List (Nat × Nat) :=
  rs.filterMap fun | .buf i f _ => some (i, f) | _ => none

/-- Number of errors reported. -/
def errors (rs : List (Res Buf Err)) : Nat := rs.countP fun | .err _ => true | _ => false

/-- Number of "end" reports. -/
def ends (rs : List (Res Buf Err)) : Nat := rs.countP fun | .done => true | _ => false

/-- Fresh provider (file_perf_data_provider.h:57-62). -/
def new (files : List Nat) : Provider := ⟨files, 0, 0⟩

/-- The positioned file list. -/
def positioned (files : List Nat) : List (Nat × Nat) := files.zipIdx.map fun x => (x.2, x.1)

theorem positioned_length (files : List Nat) : (positioned files).length = files.length := by
  simp [positioned]

theorem positioned_get (files : List Nat) (i : Nat) (f : Nat) (h : files[i]? = some f) :
    (positioned files)[i]? = some (i, f) := by
  simp [positioned, List.getElem?_zipIdx, h]

theorem calls_spec (rd : Nat → Nat → Except Err Buf) (n : Nat) (p : Provider)
    (h : p.index ≤ p.files.length) :
    (calls rd n p).2.files = p.files ∧
    (calls rd n p).2.index = p.index + (delivered (calls rd n p).1).length ∧
    (calls rd n p).2.index ≤ p.files.length ∧
    delivered (calls rd n p).1 = ((positioned p.files).drop p.index).take (delivered (calls rd n p).1).length ∧
    (delivered (calls rd n p).1).length + errors (calls rd n p).1 + ends (calls rd n p).1 = n ∧
    (0 < ends (calls rd n p).1 → (calls rd n p).2.index = p.files.length) := by
  induction n generalizing p with
  | zero => simp [calls, delivered, errors, ends, h]
  | succ n ih =>
    unfold calls
    cases hg : p.files[p.index]? with
    | none =>
      have hge : p.files.length ≤ p.index := List.getElem?_eq_none_iff.1 hg
      have e : getNext rd p = (.done, p) := by simp [getNext, hg]
      simp only [e]
      obtain ⟨h1, h2, h3, h4, h5, h6⟩ := ih p h
      have hd : delivered (Res.done :: (calls rd n p).1 : List (Res Buf Err)) = delivered (calls rd n p).1 := rfl
      have he : errors (Res.done :: (calls rd n p).1 : List (Res Buf Err)) = errors (calls rd n p).1 := by
        simp [errors]
      have hn : ends (Res.done :: (calls rd n p).1 : List (Res Buf Err)) = ends (calls rd n p).1 + 1 := by
        simp [ends]
      rw [hd, he, hn]
      exact ⟨h1, h2, h3, h4, by omega, fun _ => by omega⟩
    | some f =>
      have hlt : p.index < p.files.length := by
        by_contra hc
        rw [List.getElem?_eq_none (by omega)] at hg; cases hg
      cases hr : rd p.time f with
      | error er =>
        have e : getNext rd p = (.err er, { p with time := p.time + 1 }) := by simp [getNext, hg, hr]
        simp only [e]
        obtain ⟨h1, h2, h3, h4, h5, h6⟩ := ih { p with time := p.time + 1 } h
        generalize hc : calls rd n { p with time := p.time + 1 } = c at *
        have hd : delivered (Res.err er :: c.1 : List (Res Buf Err)) = delivered c.1 := rfl
        have he : errors (Res.err er :: c.1 : List (Res Buf Err)) = errors c.1 + 1 := by simp [errors]
        have hn : ends (Res.err er :: c.1 : List (Res Buf Err)) = ends c.1 := by simp [ends]
        rw [hd, he, hn]
        exact ⟨h1, h2, h3, h4, by omega, h6⟩
      | ok b =>
        have e : getNext rd p =
            (.buf p.index f b, { p with index := p.index + 1, time := p.time + 1 }) := by
          simp [getNext, hg, hr]
        simp only [e]
        obtain ⟨h1, h2, h3, h4, h5, h6⟩ := ih { p with index := p.index + 1, time := p.time + 1 } hlt
        generalize hc : calls rd n { p with index := p.index + 1, time := p.time + 1 } = c at *
        have hd : delivered (Res.buf p.index f b :: c.1 : List (Res Buf Err)) = (p.index, f) :: delivered c.1 := rfl
        have he : errors (Res.buf p.index f b :: c.1 : List (Res Buf Err)) = errors c.1 := by simp [errors]
        have hn : ends (Res.buf p.index f b :: c.1 : List (Res Buf Err)) = ends c.1 := by simp [ends]
        rw [hd, he, hn]
        simp only [List.length_cons] at *
        refine ⟨h1, by omega, h3, ?_, by omega, h6⟩
        rw [List.drop_eq_getElem_cons (by rw [positioned_length]; exact hlt), List.take_succ_cons, ← h4]
        congr 1
        have := positioned_get p.files p.index f hg
        rw [List.getElem?_eq_getElem (by rw [positioned_length]; exact hlt)] at this
        exact (Option.some.inj this).symm

/-- **C43.** Whatever reads fail, after any number `n` of calls: the buffers delivered are exactly the first
`k` files in the given order, each once, with its position; every call delivers a file, reports an error or
reports the end, so each failing call costs exactly one call and skips nothing; and the end is reported
only when all files have been delivered. -/
theorem delivers_in_order (rd : Nat → Nat → Except Err Buf) (files : List Nat) (n : Nat) :
    ∃ k, delivered (calls rd n (new files)).1 = (positioned files).take k ∧ k ≤ files.length ∧
      k + errors (calls rd n (new files)).1 + ends (calls rd n (new files)).1 = n ∧
      (0 < ends (calls rd n (new files)).1 → k = files.length) := by
  obtain ⟨_, h2, h3, h4, h5, h6⟩ := calls_spec rd n (new files) (Nat.zero_le _)
  refine ⟨(delivered (calls rd n (new files)).1).length, ?_, ?_, h5, ?_⟩
  · simpa [new] using h4
  · have e : (new files).index = 0 := rfl
    have e' : (new files).files = files := rfl
    rw [e, Nat.zero_add] at h2
    rw [← h2]; exact h3
  · intro h
    have e : (new files).index = 0 := rfl
    rw [e, Nat.zero_add] at h2
    rw [← h2]; exact h6 h

/-- C43: as long as fewer than `n - files.length` calls fail, `n` calls deliver everything. -/
theorem delivers_all (rd : Nat → Nat → Except Err Buf) (files : List Nat) (n : Nat)
    (h : files.length + errors (calls rd n (new files)).1 ≤ n) :
    delivered (calls rd n (new files)).1 = positioned files := by
  obtain ⟨k, h1, h2, h3, h4⟩ := delivers_in_order rd files n
  have hk : k = files.length := by
    by_cases he : 0 < ends (calls rd n (new files)).1
    · exact h4 he
    · omega
  rw [h1, hk, ← positioned_length, List.take_length]

/-- C43: once the end has been reported it is reported forever. -/
theorem end_is_final (rd : Nat → Nat → Except Err Buf) (p : Provider)
    (h : (getNext rd p).1 = .done) (n : Nat) :
    (calls rd n (getNext rd p).2).1 = List.replicate n .done := by
  have hnone : p.files[p.index]? = none := by
    unfold getNext at h
    split at h
    · assumption
    · split at h <;> cases h
  have e : getNext rd p = (.done, p) := by simp [getNext, hnone]
  rw [e]
  induction n with
  | zero => rfl
  | succ n ih => simp only [calls, e]; rw [List.replicate_succ]; congr 1

/-- C43: a failing call reports the reader's error, and the next call tries the same file again. -/
theorem error_retries (rd : Nat → Nat → Except Err Buf) (p : Provider) (e : Err)
    (h : (getNext rd p).1 = .err e) :
    ∃ f, p.files[p.index]? = some f ∧ rd p.time f = .error e ∧
      (getNext rd p).2.index = p.index ∧ (getNext rd p).2.files = p.files := by
  unfold getNext at h ⊢
  split at h
  · cases h
  · rename_i f hf
    refine ⟨f, hf, ?_⟩
    split at h
    · rename_i er her; cases h; simp [her]
    · cases h

/-- `GetAllAvailableOrNext` (file_perf_data_provider.h:78-90): the loop, with `fuel` an upper bound on the
number of iterations (`fuel = number of remaining files + 1` always suffices, see `getAll_terminates`).
Returns the buffers, or the error. -/
def getAll (rd : Nat → Nat → Except Err Buf) : Nat → Provider → List (Nat × Nat × Buf) →
    Option (Except Err (List (Nat × Nat × Buf)) × Provider)
  | 0, _, _ => none
  | fuel + 1, p, acc =>
    match getNext rd p with
    | (.err e, p') => some (.error e, p')
    | (.done, p') => some (.ok acc, p')
    | (.buf i f b, p') => getAll rd fuel p' (acc ++ [(i, f, b)])

/-- The loop ends within `remaining + 1` iterations. -/
theorem getAll_terminates (rd : Nat → Nat → Except Err Buf) (p : Provider) (fuel : Nat)
    (h : p.files.length - p.index < fuel) (acc : List (Nat × Nat × Buf)) :
    (getAll rd fuel p acc).isSome := by
  induction fuel generalizing p acc with
  | zero => omega
  | succ fuel ih =>
    unfold getAll
    cases hg : p.files[p.index]? with
    | none => simp [getNext, hg]
    | some f =>
      have hlt : p.index < p.files.length := by
        by_contra hc
        rw [List.getElem?_eq_none (by omega)] at hg; cases hg
      cases hr : rd p.time f with
      | error e => simp [getNext, hg, hr]
      | ok b =>
        simp only [getNext, hg, hr]
        exact ih _ (by simp only; omega) _

/-- A successful call returns all remaining files in order. -/
theorem getAll_ok (rd : Nat → Nat → Except Err Buf) (p : Provider) (fuel : Nat)
    (acc out : List (Nat × Nat × Buf)) (p' : Provider)
    (h : p.index ≤ p.files.length) (hr : getAll rd fuel p acc = some (.ok out, p')) :
    out.map (fun x => (x.1, x.2.1)) = acc.map (fun x => (x.1, x.2.1)) ++ (positioned p.files).drop p.index ∧
    p'.index = p.files.length ∧ p'.files = p.files := by
  induction fuel generalizing p acc with
  | zero => cases hr
  | succ fuel ih =>
    unfold getAll at hr
    cases hg : p.files[p.index]? with
    | none =>
      have hge : p.files.length ≤ p.index := List.getElem?_eq_none_iff.1 hg
      simp only [getNext, hg, Option.some.injEq, Prod.mk.injEq, Except.ok.injEq] at hr
      obtain ⟨rfl, rfl⟩ := hr
      refine ⟨?_, by omega, rfl⟩
      rw [List.drop_eq_nil_of_le (by rw [positioned_length]; exact hge), List.append_nil]
    | some f =>
      have hlt : p.index < p.files.length := by
        by_contra hc
        rw [List.getElem?_eq_none (by omega)] at hg; cases hg
      cases hrd : rd p.time f with
      | error e => simp [getNext, hg, hrd] at hr
      | ok b =>
        simp only [getNext, hg, hrd] at hr
        obtain ⟨h1, h2, h3⟩ := ih { p with index := p.index + 1, time := p.time + 1 } _ hlt hr
        refine ⟨?_, h2, h3⟩
        rw [h1, List.map_append, List.append_assoc]
        congr 1
        rw [List.drop_eq_getElem_cons (l := positioned p.files) (i := p.index)
          (by rw [positioned_length]; exact hlt)]
        have := positioned_get p.files p.index f hg
        rw [List.getElem?_eq_getElem (by rw [positioned_length]; exact hlt)] at this
        rw [Option.some.inj this]
        rfl

/-- **C47, the part that holds.** If a call returns buffers, they are all the files in the given order, and
a further call returns the empty list.  Missing from C47: calls that fail. -/
theorem getAll_complete_partial (rd : Nat → Nat → Except Err Buf) (files : List Nat) (fuel : Nat)
    (out : List (Nat × Nat × Buf)) (p' : Provider)
    (hr : getAll rd fuel (new files) [] = some (.ok out, p')) :
    out.map (fun x => (x.1, x.2.1)) = positioned files ∧ getAll rd 1 p' [] = some (.ok [], p') := by
  obtain ⟨h1, h2, h3⟩ := getAll_ok rd (new files) fuel [] out p' (Nat.zero_le _) hr
  refine ⟨by simpa [new] using h1, ?_⟩
  have hn : p'.files[p'.index]? = none := by
    rw [h2, h3]; exact List.getElem?_eq_none (Nat.le_refl _)
  simp [getAll, getNext, hn]

/-- **C47 is violated**: if a read fails once in the middle, the files read before it in the same call are
neither returned by that call nor by any later one. -/
theorem getAll_complete_violated :
    let rd : Nat → Nat → Except String Nat := fun t f => if t = 1 then .error "EIO" else .ok (f * 10)
    ∃ p1 p2, getAll rd 3 (new [5, 6]) [] = some (.error "EIO", p1) ∧
      getAll rd 3 p1 [] = some (.ok [(1, 6, 60)], p2) ∧ getAll rd 3 p2 [] = some (.ok [], p2) := by
  refine ⟨⟨[5, 6], 1, 2⟩, ⟨[5, 6], 2, 3⟩, ?_, ?_, ?_⟩ <;> rfl

/-- Non-vacuity for C43: the second read fails, the fourth too. -/
example : let rd : Nat → Nat → Except String Nat := fun t f => if t % 2 = 1 then .error "EIO" else .ok (f * 10)
    (calls rd 6 (new [5, 6, 7])).1 =
      [.buf 0 5 50, .err "EIO", .buf 1 6 60, .err "EIO", .buf 2 7 70, .done] := by rfl

end Verif.FileProvider
