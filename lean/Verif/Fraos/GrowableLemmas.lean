import Verif.Fraos.Growable
import Mathlib.Data.List.Forall2

/-! # Lemmas on growable mappings -/

namespace Verif.Fraos

/-! ### Chunks -/

theorem Chunk.appendRelative_ok {c : Chunk} {e : Nat} (h : c.size < e) :
    c.appendRelative e = .ok { c with bounds := c.bounds ++ [e] } := by
  unfold Chunk.appendRelative
  unfold Chunk.size at h
  rw [if_neg (by omega), if_neg (by omega)]

theorem Chunk.size_append (s : Nat) (bs : List Nat) (e : Nat) : (Chunk.mk s (bs ++ [e])).size = e := by
  simp [Chunk.size]

theorem Chunk.OK.appended {c : Chunk} (h : c.OK) {e : Nat} (he : c.size < e) :
    Chunk.OK { c with bounds := c.bounds ++ [e] } where
  nonempty := by simp
  sorted := by
    simp only
    rw [List.pairwise_append]
    refine ⟨h.sorted, by simp, ?_⟩
    intro a ha b hb
    simp only [List.mem_singleton] at hb
    subst hb
    exact lt_of_le_of_lt (h.le_size ha) he
  pos := by
    intro b hb
    rcases List.mem_append.mp hb with hb | hb
    · exact h.pos b hb
    · simp only [List.mem_singleton] at hb; omega

theorem Chunk.single_ok (s : Nat) {e : Nat} (he : 0 < e) : Chunk.OK ⟨s, [e]⟩ where
  nonempty := by simp
  sorted := by simp
  pos := by intro b hb; simp only [List.mem_singleton] at hb; omega

@[simp] theorem Chunk.single_size (s e : Nat) : (Chunk.mk s [e]).size = e := rfl
@[simp] theorem Chunk.single_stop (s e : Nat) : (Chunk.mk s [e]).stop = s + e := rfl
@[simp] theorem Chunk.nil_size (s : Nat) : (Chunk.mk s []).size = 0 := rfl

/-! ### Invariant -/

namespace GM

/-- All chunks, the active one last. -/
def chunks (g : GM) : List Chunk := g.index ++ (g.active.map Active.bounds).toList

/-- All boundaries. -/
def bounds (g : GM) : List Nat := globalBounds g.chunks

end GM

/-- Position `off` of a mapping holds the `n` bytes of `C` from `a` on. -/
def MemOK (isFile : Bool) (C : List UInt8) (m : Mem) (off a n : Nat) : Prop :=
  match m with
  | .file o => isFile = true ∧ o + off = a
  | .anon b => isFile = false ∧ off + n ≤ b.len ∧ ∀ i, i < n → C[a + i]? = some (b.get (off + i))

/-- The file starts with `C`. -/
def FileHas (f : Blob) (C : List UInt8) : Prop :=
  C.length ≤ f.len ∧ ∀ i, i < C.length → C[i]? = some (f.get i)

/-- The mappings hold exactly the bytes `C`. -/
structure GMOK (g : GM) (C : List UInt8) : Prop where
  chain : Chain 0 g.chunks C.length
  maps : List.Forall₂ (fun c v => v.len = c.size ∧ MemOK g.file.isSome C v.mem v.start c.start c.size)
    g.index g.maps
  active : ∀ a, g.active = some a → a.bounds.size ≤ a.len ∧
    MemOK g.file.isSome C a.mem 0 a.bounds.start a.bounds.size
  anonLen : ∀ a b, g.active = some a → a.mem = .anon b → b.len = a.len
  file : ∀ f, g.file = some f → FileHas f C

/-- The active mapping lies inside the file. -/
def Room (g : GM) : Prop :=
  ∀ a f, g.active = some a → g.file = some f → a.bounds.start + a.len ≤ f.len

theorem MemOK.append {isFile : Bool} {C D : List UInt8} {m : Mem} {off a n : Nat}
    (h : MemOK isFile C m off a n) : MemOK isFile (C ++ D) m off a n := by
  cases m with
  | file o => exact h
  | anon b =>
    refine ⟨h.1, h.2.1, ?_⟩
    intro i hi
    have := h.2.2 i hi
    rw [List.getElem?_append_left]
    · exact this
    · by_contra hc
      rw [List.getElem?_eq_none (by omega)] at this; cases this

theorem FileHas.read {f : Blob} {C : List UInt8} (h : FileHas f C) {a n : Nat}
    (hn : a + n ≤ C.length) : f.read a n = (C.drop a).take n :=
  Blob.read_eq hn (le_trans hn h.1) (fun i hi => h.2 (a + i) (by omega))

theorem load_ok {g : GM} {C : List UInt8} (hf : ∀ f, g.file = some f → FileHas f C)
    {m : Mem} {off a n : Nat} (h : MemOK g.file.isSome C m off a n) {k : Nat} (hk : k ≤ n)
    (hn : a + n ≤ C.length) : g.load m off k = .ok ((C.drop a).take k) := by
  cases m with
  | anon b =>
    simp only [GM.load]
    rw [Blob.read_eq (content := C) (a := a) (by omega) (by have := h.2.1; omega)]
    intro i hi
    exact h.2.2 i (by omega)
  | file o =>
    simp only [GM.load]
    obtain ⟨h1, h2⟩ := h
    obtain ⟨f, hfile⟩ := Option.isSome_iff_exists.mp h1
    have hF := hf f hfile
    have hb : g.fileBlob = f := by simp [GM.fileBlob, hfile]
    rw [hb, if_pos, h2, hF.read (by omega)]
    right
    have := le_pageEnd f.len
    have := hF.1
    omega

/-- Slicing a view inside its length. -/
theorem View.slice_ok {v : View} {a l : Nat} (hl : 0 < l) (h : a + l ≤ v.len) :
    v.slice a (a + l) = { v with start := v.start + a, len := l } := by
  unfold View.slice
  rw [if_neg (by omega), if_neg (by omega), if_neg (by omega)]
  simp only [View.mk.injEq, true_and]
  have : min (a + l - 1) (v.len - 1) = a + l - 1 := by omega
  rw [this, if_pos (by omega)]
  omega

theorem forall2_getElem {α β : Type} {R : α → β → Prop} {l : List α} {m : List β}
    (h : List.Forall₂ R l m) {n : Nat} {x : α} (hx : l[n]? = some x) :
    ∃ y, m[n]? = some y ∧ R x y := by
  induction h generalizing n with
  | nil => simp at hx
  | cons hab _ ih =>
    cases n with
    | zero => simp only [List.getElem?_cons_zero, Option.some.injEq] at hx; subst hx; exact ⟨_, rfl, hab⟩
    | succ n => simp only [List.getElem?_cons_succ] at hx ⊢; exact ih hx

namespace GMOK

variable {g : GM} {C : List UInt8}

theorem split (h : GMOK g C) : ∃ m, Chain 0 g.index m ∧ Index.total g.index = m ∧
    Chain m (g.active.map Active.bounds).toList C.length := by
  obtain ⟨m, h1, h2⟩ := h.chain.split
  exact ⟨m, h1, h1.total, h2⟩

/-- The total length. -/
theorem len_eq (h : GMOK g C) : g.len = C.length := by
  obtain ⟨m, _, hm, h2⟩ := h.split
  unfold GM.len
  cases ha : g.active with
  | none =>
    rw [ha] at h2
    simp only [Option.map_none, Option.toList_none, Chain] at h2
    simp only; omega
  | some a =>
    rw [ha] at h2
    simp only [Option.map_some, Option.toList_some, Chain] at h2
    simpa using h2.2.2

/-- Reads below the total length see the bytes up to the next boundary. -/
theorem getRef_ok (h : GMOK g C) {a : Nat} (ha : a < C.length) :
    ∃ v, g.getRef a = .ok (some v) ∧ 0 < v.len ∧ a + v.len ≤ C.length ∧ a + v.len ∈ g.bounds ∧
      (∀ b ∈ g.bounds, a < b → a + v.len ≤ b) ∧
      ∀ k, k ≤ v.len → g.readView v k = .ok ((C.drop a).take k) := by
  obtain ⟨m, h1, hm, h2⟩ := h.split
  have hmC := h2.le
  unfold GM.getRef
  by_cases hc : a < Index.total g.index
  · rw [if_pos hc]
    rw [hm] at hc
    obtain ⟨n, c, l, e1, hn, hs, hst, hl, hle, hin, hmin⟩ := h1.find_spec hc
    obtain ⟨v, hv, hvl, hmem⟩ := forall2_getElem h.maps hn
    have hcm : c ∈ g.index := List.mem_of_getElem? hn
    have hr := h1.start_ge hcm
    have hstop := c.stop_eq
    simp only [e1, hv]
    rw [View.slice_ok hl (by omega)]
    refine ⟨_, rfl, hl, by simp only; omega, ?_, ?_, ?_⟩
    · unfold GM.bounds GM.chunks
      rw [globalBounds_append]
      exact List.mem_append_left _ hin
    · intro b hb hab
      unfold GM.bounds GM.chunks at hb
      rw [globalBounds_append] at hb
      rcases List.mem_append.mp hb with hb | hb
      · exact hmin b hb hab
      · obtain ⟨d, hd, x, hx, rfl⟩ := mem_globalBounds.mp hb
        have := h2.start_ge hd
        simp only; omega
    · intro k hk
      simp only at hk
      unfold GM.readView
      simp only
      apply load_ok h.file (n := l) _ hk (by omega)
      cases hme : v.mem with
      | file o =>
        rw [hme] at hmem
        exact ⟨hmem.1, by have := hmem.2; omega⟩
      | anon b =>
        rw [hme] at hmem
        refine ⟨hmem.1, by have := hmem.2.1; omega, ?_⟩
        intro i hi
        have := hmem.2.2 (a - c.start + i) (by omega)
        rw [show c.start + (a - c.start + i) = a + i by omega] at this
        rw [this]; congr 2; omega
  · rw [if_neg hc]
    rw [hm] at hc
    cases hact : g.active with
    | none =>
      rw [hact] at h2
      simp only [Option.map_none, Option.toList_none, Chain] at h2
      omega
    | some act =>
      rw [hact] at h2
      simp only [Option.map_some, Option.toList_some, Chain] at h2
      obtain ⟨hst, hok, hend⟩ := h2
      obtain ⟨l, e1, hl, hin, hmin⟩ := hok.find_spec (a := a) (by omega) (by omega)
      have hstop := act.bounds.stop_eq
      obtain ⟨hsz, hmem⟩ := h.active act hact
      have hls := hok.le_size hin
      simp only [e1]
      rw [if_pos (by omega)]
      refine ⟨_, rfl, hl, by simp only; omega, ?_, ?_, ?_⟩
      · unfold GM.bounds GM.chunks
        rw [globalBounds_append, hact]
        apply List.mem_append_right
        rw [mem_globalBounds]
        exact ⟨act.bounds, by simp, _, hin, by simp only; omega⟩
      · intro b hb hab
        unfold GM.bounds GM.chunks at hb
        rw [globalBounds_append, hact] at hb
        rcases List.mem_append.mp hb with hb | hb
        · obtain ⟨d, hd, x, hx, rfl⟩ := mem_globalBounds.mp hb
          have := h1.start_ge hd
          have := (h1.ok hd).le_size hx
          have := d.stop_eq
          omega
        · obtain ⟨d, hd, x, hx, rfl⟩ := mem_globalBounds.mp hb
          simp only [Option.map_some, Option.toList_some, List.mem_singleton] at hd
          subst hd
          have := hmin x hx (by omega)
          simp only; omega
      · intro k hk
        simp only at hk
        unfold GM.readView
        simp only
        apply load_ok h.file (n := l) _ hk (by omega)
        cases hme : act.mem with
        | file o =>
          rw [hme] at hmem
          exact ⟨hmem.1, by have := hmem.2; omega⟩
        | anon b =>
          rw [hme] at hmem
          refine ⟨hmem.1, by have := hmem.2.1; omega, ?_⟩
          intro i hi
          have := hmem.2.2 (a - act.bounds.start + i) (by omega)
          rw [show act.bounds.start + (a - act.bounds.start + i) = a + i by omega] at this
          rw [this]; congr 2; omega

/-- Reads at or past the total length see nothing. -/
theorem getRef_none (h : GMOK g C) {a : Nat} (ha : C.length ≤ a) : g.getRef a = .ok none := by
  obtain ⟨m, h1, hm, h2⟩ := h.split
  have hmC := h2.le
  unfold GM.getRef
  rw [if_neg (by omega)]
  cases hact : g.active with
  | none => rfl
  | some act =>
    rw [hact] at h2
    simp only [Option.map_some, Option.toList_some, Chain] at h2
    simp only
    rw [Chunk.find_outside (by omega)]

end GMOK

/-! ### Opening -/

theorem new_memory (w : Bool) (ex : Option Nat) :
    ∃ g, GM.new none w ex = .ok g ∧ GMOK g [] ∧ Room g ∧ g.bounds = [] ∧ g.file = none ∧
      g.writable = w := by
  refine ⟨⟨none, w, [], [], none⟩, rfl, ⟨rfl, .nil, ?_, ?_, ?_⟩, ?_, rfl, rfl, rfl⟩
  · intro a ha; cases ha
  · intro a b ha; cases ha
  · intro f hf; cases hf
  · intro a f ha; cases ha

/-- Opening a file that starts with `C` and declaring its length. -/
theorem new_file {f : Blob} {C : List UInt8} (h : FileHas f C) (w : Bool) (ex : Option Nat)
    (hex : ex.getD f.len = C.length) :
    ∃ g, GM.new (some f) w ex = .ok g ∧ GMOK g C ∧ Room g ∧ (∀ b ∈ g.bounds, b = C.length) ∧
      g.file = some f ∧ g.writable = w := by
  have hle : ¬ ex.getD 0 > f.len := by
    cases ex with
    | none => simp
    | some n => simp only [Option.getD_some] at hex ⊢; have := h.1; omega
  unfold GM.new
  simp only
  rw [if_neg hle, hex]
  by_cases hc : C.length > 0
  · rw [if_pos hc]
    refine ⟨_, rfl, ⟨?_, ?_, ?_, ?_, ?_⟩, ?_, ?_, rfl, rfl⟩
    · simp only [GM.chunks, Option.map_none, Option.toList_none, List.append_nil, Chain]
      exact ⟨trivial, Chunk.single_ok 0 hc, by simp⟩
    · refine .cons ⟨rfl, rfl, rfl⟩ .nil
    · intro a ha; cases ha
    · intro a b ha; cases ha
    · intro f' hf'; cases hf'; exact h
    · intro a f' ha; cases ha
    · intro b hb
      simp only [GM.bounds, GM.chunks, globalBounds] at hb
      simpa using hb
  · have h0 : C = [] := by
      cases C with
      | nil => rfl
      | cons x xs => simp at hc
    subst h0
    rw [if_neg (by simp)]
    refine ⟨_, rfl, ⟨rfl, .nil, ?_, ?_, ?_⟩, ?_, ?_, rfl, rfl⟩
    · intro a ha; cases ha
    · intro a b ha; cases ha
    · intro f' hf'; cases hf'; exact h
    · intro a f' ha; cases ha
    · intro b hb; simp [GM.bounds, GM.chunks, globalBounds] at hb

/-! ### Growing -/

/-- What `grow` may do to the file before storing the new bytes. -/
def Stretch (n k : Nat) (f f1 : Option Blob) : Prop :=
  f1 = f ∨ ∃ b, f = some b ∧ f1 = some (b.setLen (n + k))

theorem Stretch.isSome {n k : Nat} {f f1 : Option Blob} (h : Stretch n k f f1) : f1.isSome = f.isSome := by
  rcases h with rfl | ⟨b, rfl, rfl⟩ <;> rfl

theorem Stretch.fileHas {C : List UInt8} {k : Nat} {f f1 : Option Blob} (h : Stretch C.length k f f1)
    (hf : ∀ b, f = some b → FileHas b C) : ∀ b, f1 = some b → FileHas b C := by
  rcases h with rfl | ⟨b, rfl, rfl⟩
  · exact hf
  · intro b' hb'
    cases hb'
    have := hf b rfl
    refine ⟨by simp, ?_⟩
    intro i hi
    rw [Blob.setLen_get_lt (by have := this.1; omega) (by omega)]
    exact this.2 i hi

/-- Room has been made for `ext` more bytes at `at_`. -/
structure Ready (k : Nat) (g0 g : GM) (C : List UInt8) (ext at_ : Nat) : Prop where
  ex : ∃ a, g.active = some a ∧ a.bounds.start + at_ = C.length ∧ a.bounds.size = at_ + ext ∧
    at_ + ext ≤ a.len ∧ MemOK g.file.isSome C a.mem 0 a.bounds.start at_ ∧
    (∀ b, a.mem = .anon b → b.len = a.len)
  chain : Chain 0 g.chunks (C.length + ext)
  maps : List.Forall₂ (fun c v => v.len = c.size ∧ MemOK g.file.isSome C v.mem v.start c.start c.size)
    g.index g.maps
  file : Stretch C.length k g0.file g.file
  room : Room g
  bounds : ∀ b ∈ g.bounds, b ∈ g0.bounds ∨ b = C.length + ext
  writable : g.writable = g0.writable

/-- Nothing has happened, except maybe to the length of the file. -/
structure Unharmed (k : Nat) (g0 g : GM) (C : List UInt8) : Prop where
  ok : GMOK g C
  room : Room g
  file : Stretch C.length k g0.file g.file
  index : g.index = g0.index
  maps : g.maps = g0.maps
  active : g.active = g0.active
  writable : g.writable = g0.writable

theorem Unharmed.bounds {k : Nat} {g0 g : GM} {C : List UInt8} (h : Unharmed k g0 g C) : g.bounds = g0.bounds := by
  simp [GM.bounds, GM.chunks, h.index, h.active]

theorem unharmed_refl {g : GM} {C : List UInt8} (h : GMOK g C) (hr : Room g) (k : Nat) : Unharmed k g g C :=
  ⟨h, hr, .inl rfl, rfl, rfl, rfl, rfl⟩

theorem active_inside {g : GM} {C : List UInt8} (h : GMOK g C) {a : Active} (ha : g.active = some a) :
    a.bounds.start + a.bounds.size = C.length := by
  obtain ⟨m, _, _, h2⟩ := h.split
  rw [ha] at h2
  simp only [Option.map_some, Option.toList_some, Chain] at h2
  have := a.bounds.stop_eq
  omega

/-- Extending the file beyond the active mapping's writes keeps everything. -/
theorem unharmed_setLen {g : GM} {C : List UInt8} {f : Blob} (h : GMOK g C) (hf : g.file = some f)
    {k : Nat} (hr : ∀ a, g.active = some a → a.bounds.start + a.len ≤ C.length + k) :
    Unharmed k g { g with file := some (f.setLen (C.length + k)) } C where
  ok := {
    chain := h.chain
    maps := by have := h.maps; rw [hf] at this; exact this
    active := by have := h.active; rw [hf] at this; exact this
    anonLen := h.anonLen
    file := Stretch.fileHas (.inr ⟨f, hf, rfl⟩) h.file }
  room := by
    intro a f' ha hf'
    simp only at ha
    cases hf'
    simpa using hr a ha
  file := .inr ⟨f, hf, rfl⟩
  index := rfl
  maps := rfl
  active := rfl
  writable := rfl

theorem Index.append_ok {ix : Index} {c : Chunk} (hc : c.OK) (h : c.start = Index.total ix) :
    Index.append ix c = .ok (ix ++ [c]) := by
  unfold Index.append
  have := hc.size_pos
  rw [if_neg (by simp [Chunk.isEmpty]; omega), if_neg (by omega)]

theorem newSize_ge (p : Params) (g : GM) (ext : Nat) : ext ≤ g.newSize p ext := by
  unfold GM.newSize; cases g.file <;> simp

/-- The three ways `create_mmap` ends. -/
theorem createMmap_spec (g : GM) (ft : Faults) (size off : Nat) :
    (g.file = none ∧ ft.map = false ∧
      g.createMmap ft size off = (.ok (.anon ⟨size, fun _ => 0⟩), g)) ∨
    (∃ f, g.file = some f ∧ ft.setLen = false ∧ ft.map = false ∧ g.writable = true ∧
      g.createMmap ft size off = (.ok (.file off), { g with file := some (f.setLen (off + size)) })) ∨
    (∃ e g1, g.createMmap ft size off = (.error e, g1) ∧
      (g1 = g ∨ ∃ f, g.file = some f ∧ g1 = { g with file := some (f.setLen (off + size)) }) ∧
      ((e = .extend ∧ (ft.setLen = true ∨ g.writable = false)) ∨ (e = .mmap ∧ ft.map = true))) := by
  unfold GM.createMmap
  cases hf : g.file with
  | none =>
    simp only
    by_cases hm : ft.map
    · rw [if_pos hm]
      exact .inr (.inr ⟨_, _, rfl, .inl rfl, .inr ⟨rfl, hm⟩⟩)
    · rw [if_neg hm]
      exact .inl ⟨trivial, by simpa using hm, rfl⟩
  | some f =>
    simp only
    by_cases hs : (ft.setLen || !g.writable) = true
    · rw [if_pos hs]
      refine .inr (.inr ⟨_, _, rfl, .inl rfl, .inl ⟨rfl, by simpa using hs⟩⟩)
    · rw [if_neg hs]
      simp only [Bool.or_eq_true, Bool.not_eq_true', not_or, Bool.not_eq_true, Bool.not_eq_false] at hs
      by_cases hm : ft.map
      · rw [if_pos hm]
        exact .inr (.inr ⟨_, _, rfl, .inr ⟨f, rfl, rfl⟩, .inr ⟨rfl, hm⟩⟩)
      · rw [if_neg hm]
        exact .inr (.inl ⟨f, rfl, hs.1, by simpa using hm, hs.2, rfl⟩)

theorem makeRoom_spec {p : Params} {g : GM} {C : List UInt8} (h : GMOK g C) (hr : Room g)
    {ft : Faults} (hp : ft.protect = false) {ext : Nat} (hext : 0 < ext) :
    (∃ at_ g1, g.makeRoom p ft ext = (.ok at_, g1) ∧ Ready (g.newSize p ext) g g1 C ext at_) ∨
    (∃ e g1, g.makeRoom p ft ext = (.error e, g1) ∧ Unharmed (g.newSize p ext) g g1 C ∧
      ((e = .extend ∧ (ft.setLen = true ∨ g.writable = false)) ∨ (e = .mmap ∧ ft.map = true))) := by
  obtain ⟨m, h1, hm, h2⟩ := h.split
  unfold GM.makeRoom
  cases hact : g.active with
  | none =>
    simp only
    rw [hact] at h2
    simp only [Option.map_none, Option.toList_none, Chain] at h2
    subst h2
    rw [hm]
    have happ : (Chunk.mk C.length []).appendRelative ext = .ok ⟨C.length, [ext]⟩ :=
      Chunk.appendRelative_ok (by simpa using hext)
    have hch : ∀ (f1 : Option Blob) (sz : Nat) (m1 : Mem),
        Chain 0 (GM.chunks { g with file := f1, active := some ⟨sz, m1, ⟨C.length, [ext]⟩⟩ })
          (C.length + ext) := by
      intro f1 sz m1
      simp only [GM.chunks, Option.map_some, Option.toList_some]
      exact h1.append ⟨rfl, Chunk.single_ok _ hext, rfl⟩
    have hbd : ∀ (f1 : Option Blob) (sz : Nat) (m1 : Mem),
        ∀ b ∈ GM.bounds { g with file := f1, active := some ⟨sz, m1, ⟨C.length, [ext]⟩⟩ },
          b ∈ g.bounds ∨ b = C.length + ext := by
      intro f1 sz m1 b hb
      simp only [GM.bounds, GM.chunks, Option.map_some, Option.toList_some, globalBounds_append] at hb
      rcases List.mem_append.mp hb with hb | hb
      · left
        simp only [GM.bounds, GM.chunks, globalBounds_append]
        exact List.mem_append_left _ hb
      · right; simpa [globalBounds] using hb
    have hge := newSize_ge p g ext
    rcases createMmap_spec g ft (g.newSize p ext) C.length with ⟨hf, hm', e⟩ | ⟨f, hf, _, _, _, e⟩ |
      ⟨err, g1, e, hg1, herr⟩
    · left
      simp only [e, happ]
      refine ⟨0, _, rfl, ⟨⟨_, rfl, rfl, by simp, by simpa using hge, ?_, ?_⟩, ?_, h.maps, .inl rfl, ?_, ?_, rfl⟩⟩
      · simp only [hf]
        refine ⟨rfl, by simp, ?_⟩
        intro i hi; omega
      · intro b hb; cases hb; rfl
      · exact hch g.file _ _
      · intro a f' _ hf'
        simp only [hf] at hf'; cases hf'
      · exact hbd g.file _ _
    · left
      simp only [e, happ]
      refine ⟨0, _, rfl, ⟨⟨_, rfl, rfl, by simp, by simpa using hge, ?_, ?_⟩, ?_, ?_, .inr ⟨f, hf, rfl⟩, ?_, ?_, rfl⟩⟩
      · exact ⟨rfl, rfl⟩
      · intro b hb; cases hb
      · exact hch _ _ _
      · have := h.maps; rw [hf] at this; exact this
      · intro a f' ha hf'
        simp only [Option.some.injEq] at ha hf'
        subst ha; subst hf'
        simp
      · exact hbd _ _ _
    · right
      simp only [e]
      refine ⟨err, g1, rfl, ?_, herr⟩
      rcases hg1 with rfl | ⟨f, hf, rfl⟩
      · exact unharmed_refl h hr _
      · apply unharmed_setLen h hf
        intro a ha; rw [hact] at ha; cases ha
  | some a =>
    simp only
    rw [hact] at h2
    simp only [Option.map_some, Option.toList_some, Chain] at h2
    obtain ⟨hst, hok, hend⟩ := h2
    have hstop := a.bounds.stop_eq
    have hpos := hok.size_pos
    obtain ⟨hsz, hmem⟩ := h.active a hact
    by_cases hroom : a.bounds.size + ext < a.len
    · rw [if_pos hroom, Chunk.appendRelative_ok (by omega)]
      left
      refine ⟨_, _, rfl, ⟨⟨_, rfl, ?_, ?_, ?_, ?_, ?_⟩, ?_, h.maps, .inl rfl, ?_, ?_, rfl⟩⟩
      · simp only; omega
      · exact Chunk.size_append _ _ _
      · simp only; omega
      · exact hmem
      · intro b hb; exact h.anonLen a b hact hb
      · simp only [GM.chunks, Option.map_some, Option.toList_some]
        refine h1.append ⟨hst, hok.appended (by omega), ?_⟩
        simp only [Chain, Chunk.stop_eq, Chunk.size_append]; omega
      · intro a' f' ha hf'
        simp only [Option.some.injEq] at ha
        subst ha
        exact hr a f' hact hf'
      · intro b hb
        simp only [GM.bounds, GM.chunks, Option.map_some, Option.toList_some, globalBounds_append] at hb
        simp only [GM.bounds, GM.chunks, hact, Option.map_some, Option.toList_some, globalBounds_append]
        rcases List.mem_append.mp hb with hb | hb
        · left; exact List.mem_append_left _ hb
        · simp only [globalBounds, List.flatMap_cons, List.flatMap_nil, List.append_nil, List.map_append,
            List.map_cons, List.map_nil, List.mem_append, List.mem_singleton] at hb ⊢
          rcases hb with hb | hb
          · left; right; exact hb
          · right; omega
    · rw [if_neg hroom]
      have happ : (Chunk.mk a.bounds.stop []).appendRelative ext = .ok ⟨a.bounds.stop, [ext]⟩ :=
        Chunk.appendRelative_ok (by simpa using hext)
      have hix : Index.append g.index a.bounds = .ok (g.index ++ [a.bounds]) :=
        Index.append_ok hok (by omega)
      have hch : ∀ (f1 : Option Blob) (mp : List View) (sz : Nat) (m1 : Mem),
          Chain 0 (GM.chunks { g with
            file := f1, index := g.index ++ [a.bounds], maps := mp
            active := some ⟨sz, m1, ⟨a.bounds.stop, [ext]⟩⟩ }) (C.length + ext) := by
        intro f1 mp sz m1
        simp only [GM.chunks, Option.map_some, Option.toList_some]
        refine Chain.append (h1.append (b := [a.bounds]) (e := C.length) ⟨hst, hok, hend⟩) ?_
        exact ⟨hend, Chunk.single_ok _ hext, by simp [Chain, hend]⟩
      have hbd : ∀ (f1 : Option Blob) (mp : List View) (sz : Nat) (m1 : Mem),
          ∀ b ∈ GM.bounds { g with
            file := f1, index := g.index ++ [a.bounds], maps := mp
            active := some ⟨sz, m1, ⟨a.bounds.stop, [ext]⟩⟩ }, b ∈ g.bounds ∨ b = C.length + ext := by
        intro f1 mp sz m1 b hb
        simp only [GM.bounds, GM.chunks, Option.map_some, Option.toList_some, globalBounds_append] at hb
        simp only [GM.bounds, GM.chunks, hact, Option.map_some, Option.toList_some, globalBounds_append]
        rcases List.mem_append.mp hb with hb | hb
        · left; exact hb
        · right
          simp only [globalBounds, List.flatMap_cons, List.flatMap_nil, List.append_nil, List.map_cons,
            List.map_nil, List.mem_singleton] at hb
          omega
      have hslice : (View.mk a.mem 0 a.len).slice 0 a.bounds.size = ⟨a.mem, 0, a.bounds.size⟩ := by
        have := View.slice_ok (v := View.mk a.mem 0 a.len) (a := 0) (l := a.bounds.size) hpos
          (by simpa using hsz)
        simpa using this
      have hge := newSize_ge p g ext
      rcases createMmap_spec g ft (g.newSize p ext) a.bounds.stop with ⟨hf, hm', e⟩ |
        ⟨f, hf, _, _, _, e⟩ | ⟨err, g1, e, hg1, herr⟩
      · left
        simp only [e, happ, hix, hp, hslice]
        refine ⟨0, _, rfl, ⟨⟨_, rfl, ?_, by simp, by simpa using hge, ?_, ?_⟩, ?_, ?_, .inl rfl, ?_, ?_, rfl⟩⟩
        · simpa using hend
        · simp only [hf]
          refine ⟨rfl, by simp, ?_⟩
          intro i hi; omega
        · intro b hb; cases hb; rfl
        · exact hch g.file _ _ _
        · exact List.rel_append h.maps (.cons ⟨rfl, hmem⟩ .nil)
        · intro a f' _ hf'
          simp only [hf] at hf'; cases hf'
        · exact hbd g.file _ _ _
      · left
        simp only [e, happ, hix, hp, hslice]
        refine ⟨0, _, rfl, ⟨⟨_, rfl, ?_, by simp, by simpa using hge, ?_, ?_⟩, ?_, ?_,
          .inr ⟨f, hf, ?_⟩, ?_, ?_, rfl⟩⟩
        · simpa using hend
        · exact ⟨rfl, rfl⟩
        · intro b hb; cases hb
        · exact hch _ _ _ _
        · have h3 := h.maps
          rw [hf] at h3
          rw [hf] at hmem
          exact List.rel_append h3 (.cons ⟨rfl, hmem⟩ .nil)
        · simp [hend]
        · intro a' f' ha hf'
          simp only [Option.some.injEq] at ha hf'
          subst ha; subst hf'
          simp
        · exact hbd _ _ _ _
      · right
        simp only [e]
        refine ⟨err, g1, rfl, ?_, herr⟩
        rcases hg1 with rfl | ⟨f, hf, rfl⟩
        · exact unharmed_refl h hr _
        · rw [hend]
          apply unharmed_setLen h hf
          intro a' ha'
          rw [hact] at ha'; cases ha'
          omega

/-- Storing the announced bytes. -/
theorem store_spec {k : Nat} {g0 g : GM} {C bs : List UInt8} {at_ : Nat} {a : Active}
    (hrd : Ready k g0 g C bs.length at_) (hf0 : ∀ f, g0.file = some f → FileHas f C)
    (ha : g.active = some a) :
    ∃ g1, g.store a at_ bs = (.ok (), g1) ∧ GMOK g1 (C ++ bs) ∧ Room g1 ∧ g1.bounds = g.bounds ∧
      g1.file = g.file.map (·.write C.length bs) ∧ g1.maps = g.maps ∧ g1.writable = g.writable := by
  obtain ⟨a', ha', hst, hsz, hlen, hmem, hanon⟩ := hrd.ex
  rw [ha] at ha'; cases ha'
  have hfC := hrd.file.fileHas hf0
  unfold GM.store
  cases hm : a.mem with
  | anon b =>
    rw [hm] at hmem
    have hnone : g.file = none := by simpa using hmem.1
    have hbl := hanon b hm
    refine ⟨_, rfl, ⟨?_, ?_, ?_, ?_, ?_⟩, ?_, ?_, ?_, rfl, rfl⟩
    · have := hrd.chain
      simp only [GM.chunks, ha, Option.map_some] at this ⊢
      rw [List.length_append]; exact this
    · refine hrd.maps.imp ?_
      intro c v hcv
      exact ⟨hcv.1, hcv.2.append⟩
    · intro a1 ha1
      simp only [Option.some.injEq] at ha1
      subst ha1
      refine ⟨by simp only; omega, hmem.1, by simp; omega, ?_⟩
      intro i hi
      simp only at hi ⊢
      rw [Nat.zero_add]
      by_cases hia : i < at_
      · rw [Blob.write_get_lt hia, List.getElem?_append_left (by omega)]
        have := hmem.2.2 i hia
        simpa using this
      · rw [List.getElem?_append_right (by omega)]
        have hx : a.bounds.start + i - C.length = i - at_ := by omega
        rw [hx]
        have hb : bs[i - at_]? = some bs[i - at_] := List.getElem?_eq_getElem (by omega)
        rw [hb]
        have := Blob.write_get_of_mem (b := b) (o := at_) hb (by omega)
        rw [show at_ + (i - at_) = i by omega] at this
        rw [this]
    · intro a1 b1 ha1 hb1
      simp only [Option.some.injEq] at ha1
      subst ha1
      cases hb1
      exact hbl
    · intro f hf
      simp only [hnone] at hf; cases hf
    · intro a1 f _ hf
      simp only [hnone] at hf; cases hf
    · simp [GM.bounds, GM.chunks, ha]
    · simp [hnone]
  | file o =>
    rw [hm] at hmem
    obtain ⟨f, hf⟩ := Option.isSome_iff_exists.mp hmem.1
    have ho : o + at_ = C.length := by have := hmem.2; omega
    have hrm := hrd.room a f ha hf
    have hblob : g.fileBlob = f := by simp [GM.fileBlob, hf]
    have hin : C.length + bs.length ≤ f.len := by omega
    simp only
    rw [hblob, ho, if_pos (.inr (le_trans hin (le_pageEnd _)))]
    refine ⟨_, rfl, ⟨?_, ?_, ?_, ?_, ?_⟩, ?_, rfl, rfl, rfl, rfl⟩
    · have := hrd.chain
      simp only [GM.chunks] at this ⊢
      rw [List.length_append]; exact this
    · simp only [Option.isSome_map]
      refine hrd.maps.imp ?_
      intro c v hcv
      exact ⟨hcv.1, hcv.2.append⟩
    · intro a1 ha1
      simp only [Option.isSome_map] at ha1 ⊢
      rw [ha] at ha1; cases ha1
      refine ⟨by omega, ?_⟩
      rw [hm]
      exact hmem
    · intro a1 b1 ha1 hb1
      simp only at ha1
      rw [ha] at ha1; cases ha1
      rw [hm] at hb1; cases hb1
    · intro f1 hf1
      simp only [hf, Option.map_some, Option.some.injEq] at hf1
      subst hf1
      refine ⟨by simpa using hin, ?_⟩
      intro i hi
      rw [List.length_append] at hi
      by_cases hia : i < C.length
      · rw [Blob.write_get_lt hia, List.getElem?_append_left hia]
        exact (hfC f hf).2 i hia
      · rw [List.getElem?_append_right (by omega)]
        have hb : bs[i - C.length]? = some bs[i - C.length] := List.getElem?_eq_getElem (by omega)
        rw [hb]
        have := Blob.write_get_of_mem (b := f) (o := C.length) hb (by omega)
        rw [show C.length + (i - C.length) = i by omega] at this
        rw [this]
    · intro a1 f1 ha1 hf1
      simp only [hf, Option.map_some, Option.some.injEq] at ha1 hf1
      subst hf1
      rw [ha] at ha1; cases ha1
      simpa using hrm

/-- Merging the read-only mappings into one. -/
theorem rearrange_spec {p : Params} {g : GM} {C : List UInt8} (h : GMOK g C) (hr : Room g)
    {ft : Faults} (hf : ft.remap = false) :
    ∃ g1, g.rearrange p ft = (.ok (), g1) ∧ GMOK g1 C ∧ Room g1 ∧ (∀ b ∈ g1.bounds, b ∈ g.bounds) ∧
      g1.file = g.file ∧ g1.writable = g.writable ∧ g1.active = g.active := by
  unfold GM.rearrange
  by_cases hc : g.maps.length ≤ p.maxMaps
  · rw [if_pos hc]
    exact ⟨g, rfl, h, hr, fun b hb => hb, rfl, rfl, rfl⟩
  · rw [if_neg hc]
    cases hfile : g.file with
    | none => exact ⟨g, rfl, h, hr, fun b hb => hb, hfile, rfl, rfl⟩
    | some f =>
      simp only [hf]
      obtain ⟨m, h1, hm, h2⟩ := h.split
      have hmpos : 0 < m := by
        cases hi : g.index with
        | nil =>
          have := h.maps.length_eq
          rw [hi] at this
          simp at this
          simp [← this] at hc
        | cons c cs =>
          rw [hi] at h1
          have := h1.2.1.size_pos
          have := h1.2.2.le
          have := c.stop_eq
          omega
      rw [hm, Chunk.appendRelative_ok (by simpa using hmpos)]
      simp only [List.nil_append, Bool.false_eq_true, if_false]
      rw [Index.append_ok (Chunk.single_ok 0 hmpos) (by simp [Index.total])]
      simp only [List.nil_append]
      refine ⟨_, rfl, ⟨?_, ?_, by have := h.active; rw [hfile] at this; exact this, h.anonLen,
        by have := h.file; rw [hfile] at this; exact this⟩, ?_, ?_, rfl, rfl, rfl⟩
      · simp only [GM.chunks]
        refine Chain.append (m := m) ⟨rfl, Chunk.single_ok 0 hmpos, by simp [Chain]⟩ h2
      · exact .cons ⟨rfl, rfl, rfl⟩ .nil
      · intro a f' ha hf'
        cases hf'
        exact hr a f ha hfile
      · intro b hb
        simp only [GM.bounds, GM.chunks, globalBounds_append] at hb ⊢
        rcases List.mem_append.mp hb with hb | hb
        · apply List.mem_append_left
          simp only [globalBounds, List.flatMap_cons, List.flatMap_nil, List.append_nil, List.map_cons,
            List.map_nil, List.mem_singleton, Nat.zero_add] at hb
          subst hb
          have hne : g.index ≠ [] := by
            intro hi; rw [hi] at h1; simp only [Chain] at h1; omega
          have hl := List.getLast_mem hne
          rw [mem_globalBounds]
          refine ⟨_, hl, _, (h1.ok hl).size_mem, ?_⟩
          rw [← hm]
          unfold Index.total
          rw [List.getLast?_eq_some_getLast hne]
          simp [Chunk.stop_eq]
        · exact List.mem_append_right _ hb

/-- `grow` when nothing fails halfway. -/
theorem grow_spec {p : Params} {g : GM} {C bs : List UInt8} (h : GMOK g C) (hr : Room g)
    {ft : Faults} (hp : ft.protect = false) (hfl : ft.flush = false) (hrm : ft.remap = false)
    (hbs : 0 < bs.length) {f : Nat → List UInt8 × Option Err}
    (hf : ∀ n, bs.length ≤ n → f n = (bs, none)) :
    (∃ g1, g.grow p ft bs.length f = (.ok (), g1) ∧ GMOK g1 (C ++ bs) ∧ Room g1 ∧
      (∀ b ∈ g1.bounds, b ∈ g.bounds ∨ b = C.length + bs.length) ∧ g1.writable = g.writable ∧
      ∃ fs, Stretch C.length (g.newSize p bs.length) g.file fs ∧ g1.file = fs.map (·.write C.length bs)) ∨
    (∃ e g1, g.grow p ft bs.length f = (.error e, g1) ∧ Unharmed (g.newSize p bs.length) g g1 C ∧
      ((e = .extend ∧ (ft.setLen = true ∨ g.writable = false)) ∨ (e = .mmap ∧ ft.map = true))) := by
  unfold GM.grow
  rw [if_neg (by omega)]
  rcases makeRoom_spec (p := p) h hr hp hbs with ⟨at_, g1, e, hrd⟩ | ⟨er, g1, e, hu, he⟩
  · left
    simp only [e]
    obtain ⟨a, ha, hst, hsz, hlen, hmem, hanon⟩ := hrd.ex
    unfold GM.writeOut
    simp only [ha]
    rw [if_neg (by omega), hf _ (by omega)]
    obtain ⟨g2, e2, hok2, hr2, hb2, hf2, _, hw2⟩ := store_spec hrd h.file ha
    simp only [e2, hfl]
    obtain ⟨g3, e3, hok3, hr3, hb3, hf3, hw3, _⟩ := rearrange_spec (p := p) hok2 hr2 hrm
    refine ⟨g3, ?_, hok3, hr3, ?_, by rw [hw3, hw2, hrd.writable], g1.file, hrd.file, by rw [hf3, hf2]⟩
    · simpa using e3
    · intro b hb
      have := hb3 b hb
      rw [hb2] at this
      exact hrd.bounds b this
  · right
    simp only [e]
    exact ⟨er, g1, rfl, hu, he⟩

/-- Shrinking to the content. -/
theorem shrink_file {g : GM} {C : List UInt8} (h : GMOK g C) {f : Blob} (hf : g.file = some f)
    (hw : g.writable = true) : g.shrink = { g with file := some (f.setLen C.length) } := by
  unfold GM.shrink
  simp only [hf, hw, if_true]
  rw [h.len_eq]

theorem FileHas.setLen {f : Blob} {C : List UInt8} (h : FileHas f C) {n : Nat} (hn : C.length ≤ n) :
    FileHas (f.setLen n) C := by
  refine ⟨by simpa using hn, ?_⟩
  intro i hi
  rw [Blob.setLen_get_lt (by have := h.1; omega) (by omega)]
  exact h.2 i hi

end Verif.Fraos
