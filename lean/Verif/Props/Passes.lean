import Verif.Lemmas.SectionsMeta
import Verif.Lemmas.SectionsStore
/-!
# C70: the sections of a modular frame hold every sample once
-/
namespace Jxl.Props
open Jxl.Modular Jxl.Modular.Whole Jxl.Passes

/-- **C70, header.** Passes that satisfy the rules of the format are written and read back, whatever follows; whatever is read satisfies the rules. -/
theorem C70_header : (∀ p : Passes, p.Good → ∃ b, Passes.write p = some b ∧ ∀ rest, Passes.read (b ++ rest) = some (p, rest)) ∧
    ∀ s p rest, Passes.read s = some (p, rest) → Passes.Passes.Good p :=
  ⟨fun _ h => passes_back h, fun _ _ _ h => passes_good h⟩

/-- **C70, every sample once.** A frame of any size with any group size and any channels, and any first section that the decoder accepts, whatever
its transforms: every sample of every channel that is not in the first section is in exactly one of the other sections. -/
theorem C70_every_sample_once {env : Jxl.Stream.Env} {junk : Nat → Nat → Nat → Px} {glob : Option (List MaTree.Node × Jxl.Stream.Code)} {xpx ypx gs mh mv up : Nat} {m : Bool}
    {d : FrameDim.Dims} (hd : d = FrameDim.set xpx ypx gs mh mv m (2 ^ up)) (hgs : gs < 4) {p : Passes} (hp : p.Good) {img : Image} (hs : Start d up img) {s : List Bool}
    {h : GroupHeader.Header} {ts : List GroupHeader.Tr} {img' : Image} {rest : List Bool}
    (hr : readCoded env junk glob 0 d.groupDim d.groupDim img s = .ok (h, ts, img', rest)) :
    ∀ c ∈ later d.groupDim img', ∀ y < c.h, ∀ x < c.w, ∃ s : Sect, s.Of d p ∧ ∀ s' : Sect, s'.Of d p → (Within d p c x y s' ↔ s' = s) := by
  intro c hc y hy x hx
  obtain ⟨f1, f2⟩ := later_facts hd hgs hs hr hc
  exact exactly_one (by rw [hd]; exact grid_of _ _ _ _ _ _ _) hp f1 (f2 (by omega) (by omega)) hx hy

/-- **C70, the whole image.** If every section holds what the encoder cuts out of an image for it, then the decoder has that image after all
sections, in whatever order they come and even if some come twice.  The image is one with the channels of the first section, and the same in
those that the first section holds. -/
theorem C70_all_sections {env : Jxl.Stream.Env} {junk : Nat → Nat → Nat → Px} {glob : Option (List MaTree.Node × Jxl.Stream.Code)} {xpx ypx gs mh mv up : Nat} {m : Bool}
    {d : FrameDim.Dims} (hd : d = FrameDim.set xpx ypx gs mh mv m (2 ^ up)) (hgs : gs < 4) {p : Passes} (hp : p.Good) {img : Image} (hs : Start d up img) {s : List Bool}
    {h : GroupHeader.Header} {ts : List GroupHeader.Tr} {rest : List Bool} {g : Frame.Global}
    (hr : readCoded env junk glob 0 d.groupDim d.groupDim img s = .ok (h, ts, g.img, rest)) (hg : g.img.Wf)
    {u : Build} {T : Image} (hT : T.Wf) (hl : SameLayout g.img T) (he : early d.groupDim g.img = early d.groupDim T)
    {secs : List (Sect × List Bool)} (hall : ∀ s : Sect, s.Of d p → ∃ q ∈ secs, q.1 = s)
    (hcut : ∀ q ∈ secs, ∃ rest, Frame.readGroup env u junk d.groupDim g (q.1.stream.id d) (q.1.shifts p).1 (q.1.shifts p).2 (q.1.rect d) q.2 =
      .ok (cutGroup d.groupDim (q.1.shifts p) (q.1.rect d) T, rest)) :
    readSections env u junk d p g secs = .ok { g with img := T } := by
  refine readSections_target hT hg hl he (fun t ht y hy x hx => ?_) hcut
  have e : t.dims ∈ (later d.groupDim g.img).map Channel.dims := by rw [later_layout hl]; exact List.mem_map_of_mem ht
  obtain ⟨c, hc, hdim⟩ := List.mem_map.mp e
  have hdim' := hdim
  simp only [Channel.dims, Prod.mk.injEq] at hdim'
  obtain ⟨s0, h1, h2⟩ := C70_every_sample_once hd hgs hp hs hr c hc y (by omega) x (by omega)
  obtain ⟨q, q1, q2⟩ := hall s0 h1
  obtain ⟨r, r1, r2⟩ := (h2 s0 h1).mpr rfl
  exact ⟨q, q1, r, by rw [q2, ← part_dims hdim]; exact r1, r2⟩

/-- **C70, resolutions.** When the sections of the low frequencies and of `n` passes have come, then exactly those samples are there whose channel is
scaled down at least as much as the resolution announced for `n` passes. -/
theorem C70_resolution {env : Jxl.Stream.Env} {junk : Nat → Nat → Nat → Px} {glob : Option (List MaTree.Node × Jxl.Stream.Code)} {xpx ypx gs mh mv up : Nat} {m : Bool}
    {d : FrameDim.Dims} (hd : d = FrameDim.set xpx ypx gs mh mv m (2 ^ up)) (hgs : gs < 4) {p : Passes} (hp : p.Good) {img : Image} (hs : Start d up img) {s : List Bool}
    {h : GroupHeader.Header} {ts : List GroupHeader.Tr} {img' : Image} {rest : List Bool}
    (hr : readCoded env junk glob 0 d.groupDim d.groupDim img s = .ok (h, ts, img', rest)) (n : Nat) :
    ∀ c ∈ later d.groupDim img', ∀ y < c.h, ∀ x < c.w,
      ((∃ s : Sect, s.Of d p ∧ s.Come n ∧ Within d p c x y s) ↔ target p n ≤ 2 ^ (min c.hshift c.vshift).toNat) := by
  intro c hc y hy x hx
  obtain ⟨f1, f2⟩ := later_facts hd hgs hs hr hc
  have h0 : 0 ≤ min c.hshift c.vshift := by
    have := f1.h0
    have := f1.v0
    omega
  obtain ⟨s0, h1, h2⟩ := C70_every_sample_once hd hgs hp hs hr c hc y hy x hx
  have hw := (h2 s0 h1).mpr rfl
  rw [← come_iff hp h0 h1 hw n]
  constructor
  · rintro ⟨s', q1, q2, q3⟩
    rw [(h2 s' q1).mp q3] at q2
    exact q2
  · exact fun h => ⟨s0, h1, h, hw⟩

/-- **C70, streams.** No two streams of a frame have the same number, and all are below the number of streams. -/
theorem C70_streams (d : FrameDim.Dims) (n : Nat) : (∀ a b : Passes.Stream, a.Of d n → b.Of d n → a.id d = b.id d → a = b) ∧
    ∀ a : Passes.Stream, a.Of d n → a.id d < numStreams d n :=
  ⟨fun _ _ ha hb h => stream_inj ha hb h, fun _ ha => stream_lt ha⟩

/-- **C70, streams of sections.** Different sections of a frame are decoded from streams with different numbers, none of which is that of the global part, and all are below the
number of streams. -/
theorem C70_section_streams (d : FrameDim.Dims) (p : Passes) : (∀ s t : Sect, s.Of d p → t.Of d p → s.stream.id d = t.stream.id d → s = t) ∧
    ∀ s : Sect, s.Of d p → s.stream.id d ≠ Stream.global.id d ∧ s.stream.id d < numStreams d p.num := by
  have hof : ∀ s : Sect, s.Of d p → s.stream.Of d p.num := by
    intro s hs
    cases s with
    | lf g => exact hs
    | hf n g => exact hs
  have h := C70_streams d p.num
  refine ⟨fun s t hs ht e => ?_, fun s hs => ⟨fun e => ?_, h.2 _ (hof s hs)⟩⟩
  · have e := h.1 _ _ (hof s hs) (hof t ht) e
    cases s <;> cases t <;> cases e <;> rfl
  · have e := h.1 _ Stream.global (hof s hs) trivial e
    cases s <;> cases e

/-! ## A frame of 300 by 2 pixels with groups of 128, squeezed both ways, with two passes -/

def passDims : FrameDim.Dims := FrameDim.set 300 2 0 0 0 true (2 ^ 0)
def passPlan : Passes := ⟨2, [0], [2], [0]⟩
def passStart : Image := ⟨[blank (fun _ _ => 0) ⟨300, 2, 0, 0⟩], 0⟩
def passHeader : GroupHeader.Header := ⟨true, Wp.defaultHeader, [.squeeze [⟨true, true, 0, 1⟩, ⟨false, true, 0, 1⟩]]⟩
def passBits : List Bool := (GroupHeader.write passHeader).getD []
def passEnv : Jxl.Stream.Env := ⟨List.replicate 32 ⟨0, 0⟩, fun la _ => List.replicate (2 ^ la) default, [], 0⟩
/-- Every sample is one more than the one to the left. -/
def passCode : List MaTree.Node × Jxl.Stream.Code := ([⟨-1, 0, 0, 0, 1, 1, 1⟩], ⟨none, [0], [⟨4, 1, 0⟩], .huff [List.replicate 256 ⟨0, 0⟩]⟩)
def passBuild : Build := ⟨8, Squeeze.scalarK, fun _ _ _ => 0, 8⟩
def passJunk : Nat → Nat → Nat → Px := fun _ _ _ => 0
def rampChannel (w h : Nat) (v : Int) : Channel := ⟨w, h, 1, v, (List.range h).map fun y => (List.range w).map fun x => BitVec.ofNat 32 (x % 64 + y + 1)⟩
def passImage : Image := ⟨[rampChannel 150 1 1, rampChannel 150 1 1, rampChannel 150 2 0], 0⟩
def passFirst : Image := ⟨[blank (fun _ _ => 0) ⟨150, 1, 1, 1⟩, blank (fun _ _ => 0) ⟨150, 1, 1, 1⟩, blank (fun _ _ => 0) ⟨150, 2, 1, 0⟩], 0⟩
def passGlobal : Frame.Global := ⟨some passCode, passHeader, passFirst, passHeader.transforms, []⟩
/-- One section comes twice. -/
def passSects : List Sect := [.hf 1 2, .hf 0 1, .lf 0, .hf 1 1, .hf 1 0, .hf 0 2, .hf 1 1, .hf 0 0]

theorem passPlan_good : passPlan.Good := ⟨by decide, by decide, by decide, by decide, by decide, by decide⟩

theorem passStart_start : Start passDims 0 passStart :=
  ⟨rfl, fun c hc => by rw [List.mem_singleton.mp hc]; exact Or.inl ⟨0, 0, by decide⟩⟩

theorem passRead : readCoded passEnv passJunk (some passCode) 0 passDims.groupDim passDims.groupDim passStart passBits = .ok (passHeader, passHeader.transforms, passFirst, []) := by
  rfl

example : ∃ b, Passes.write passPlan = some b ∧ ∀ rest, Passes.read (b ++ rest) = some (passPlan, rest) := C70_header.1 _ passPlan_good

example : (later passDims.groupDim passFirst).length = 3 := by decide +kernel

example : ∀ y < 2, ∀ x < 150, ∃ s : Sect, s.Of passDims passPlan ∧ ∀ s' : Sect, s'.Of passDims passPlan →
    (Within passDims passPlan (blank (fun _ _ => 0) ⟨150, 2, 1, 0⟩) x y s' ↔ s' = s) :=
  C70_every_sample_once (d := passDims) rfl (by decide) passPlan_good passStart_start passRead (blank (fun _ _ => 0) ⟨150, 2, 1, 0⟩) (by decide +kernel)

example : ∀ x < 150, ∃ s : Sect, s.Of passDims passPlan ∧ s.Come 1 ∧ Within passDims passPlan (blank (fun _ _ => 0) ⟨150, 1, 1, 1⟩) x 0 s := fun x hx =>
  (C70_resolution (d := passDims) rfl (by decide) passPlan_good passStart_start passRead 1 (blank (fun _ _ => 0) ⟨150, 1, 1, 1⟩) (by decide +kernel) 0 (by decide) x hx).mpr (by decide)

example : ¬ ∃ s : Sect, s.Of passDims passPlan ∧ s.Come 1 ∧ Within passDims passPlan (blank (fun _ _ => 0) ⟨150, 2, 1, 0⟩) 100 1 s := fun h =>
  absurd ((C70_resolution (d := passDims) rfl (by decide) passPlan_good passStart_start passRead 1 (blank (fun _ _ => 0) ⟨150, 2, 1, 0⟩) (by decide +kernel) 1 (by decide) 100 (by decide)).mp h)
    (by decide)

example : readSections passEnv passBuild passJunk passDims passPlan passGlobal (passSects.map fun s => (s, [true, true, false, false, true])) =
    .ok { passGlobal with img := passImage } := by
  refine C70_all_sections (d := passDims) (g := passGlobal) (glob := some passCode) rfl (by decide) passPlan_good passStart_start passRead (by unfold Image.Wf Channel.Wf; decide +kernel)
    (by unfold Image.Wf Channel.Wf; decide +kernel) (by unfold SameLayout; decide +kernel) (by decide +kernel) ?_ ?_
  · intro s hs
    have : s ∈ passSects := by
      cases s with
      | lf g =>
        have h1 : g < 1 := hs
        obtain rfl : g = 0 := by omega
        decide
      | hf n g =>
        obtain ⟨h1, h2⟩ : n < 2 ∧ g < 3 := hs
        have hn : n = 0 ∨ n = 1 := by omega
        have hg : g = 0 ∨ g = 1 ∨ g = 2 := by omega
        rcases hn with rfl | rfl <;> rcases hg with rfl | rfl | rfl <;> decide
    exact ⟨_, List.mem_map_of_mem this, rfl⟩
  · have key : ∀ s ∈ passSects, (match Frame.readGroup passEnv passBuild passJunk passDims.groupDim passGlobal (s.stream.id passDims) (s.shifts passPlan).1 (s.shifts passPlan).2
        (s.rect passDims) [true, true, false, false, true] with
        | .ok q => decide (q.1 = cutGroup passDims.groupDim (s.shifts passPlan) (s.rect passDims) passImage)
        | _ => false) = true := by decide +kernel
    intro q hq
    obtain ⟨s, hs, rfl⟩ := List.mem_map.mp hq
    have := key s hs
    dsimp only
    split at this
    · rename_i q hq
      rw [hq, ← of_decide_eq_true this]
      exact ⟨q.2, rfl⟩
    · cases this

example : (Stream.modularAc 1 2).id passDims < numStreams passDims 2 ∧ (Stream.modularAc 1 2).id passDims = 26 :=
  ⟨(C70_streams passDims 2).2 _ ⟨by decide, by decide⟩, by decide⟩

example : (Sect.hf 1 2).stream.id passDims = 26 ∧ (Sect.lf 0).stream.id passDims ≠ 26 := by decide

end Jxl.Props
