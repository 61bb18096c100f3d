import Verif.Model.FileFind
import Verif.Props.Database

/-!
# C71: finding the files of a dataset
-/

set_option linter.unusedSectionVars false

namespace Mixtera.Files

/-- Specification: the absolute location `loc` leads to the directories and the name `parts`: each part follows a slash;
empty segments (double slashes, a slash at the end) and `.` do not count. -/
def Denotes (loc : PyStr) (parts : List PyStr) : Prop :=
  ∃ segs : List PyStr, segs ≠ [] ∧ (∀ s ∈ segs, '/' ∉ s) ∧ loc = segs.flatMap ('/' :: ·) ∧
    parts = segs.filter fun s => s ≠ "".toList ∧ s ≠ ".".toList

/-- Specification: the endings of the files of each kind of dataset. -/
def endings : Kind → List PyStr
  | .jsonl => [".jsonl".toList, ".jsonl.gz".toList, ".jsonl.zst".toList, ".jsonl.xz".toList, ".jsonl.bz2".toList,
      ".jsonl.z".toList]
  | .web => [".tar".toList]
  | .parquet => [".parquet".toList]
  | .croissant => []

/-- Specification: the entries `names` of the directory `/parts...` that have one of the endings, as absolute paths, each
once. -/
def Listing (k : Kind) (parts names : List PyStr) (files : List PyStr) : Prop :=
  files.Nodup ∧ ∀ f, f ∈ files ↔ ∃ n ∈ names, (∃ e ∈ endings k, e <:+ n) ∧ f = (parts ++ [n]).flatMap ('/' :: ·)

theorem splitSlash_slash (s : PyStr) : splitSlash ('/' :: s) = [] :: splitSlash s := by
  simp [splitSlash]

theorem splitSlash_append (seg : PyStr) (hs : '/' ∉ seg) (rest : PyStr) (p : PyStr) (ps : List PyStr)
    (hr : splitSlash rest = p :: ps) : splitSlash (seg ++ rest) = (seg ++ p) :: ps := by
  induction seg with
  | nil => simpa using hr
  | cons c seg ih =>
    simp only [List.mem_cons, not_or] at hs
    simp only [List.cons_append, splitSlash]
    rw [if_neg (fun e => hs.1 e.symm), ih hs.2]

theorem splitSlash_segs (segs : List PyStr) (hs : ∀ s ∈ segs, '/' ∉ s) :
    splitSlash (segs.flatMap ('/' :: ·)) = [] :: segs := by
  induction segs with
  | nil => rfl
  | cons s ss ih =>
    have := ih fun t ht => hs t (List.mem_cons_of_mem _ ht)
    simp only [List.flatMap_cons, List.cons_append]
    rw [splitSlash_slash, splitSlash_append s (hs s List.mem_cons_self) _ _ _ this, List.append_nil]

theorem toPath_of_denotes {loc : PyStr} {parts : List PyStr} (h : Denotes loc parts) :
    toPath loc = ⟨true, parts⟩ := by
  obtain ⟨segs, hne, hs, rfl, rfl⟩ := h
  unfold toPath
  rw [splitSlash_segs segs hs]
  cases segs with
  | nil => exact absurd rfl hne
  | cons s ss => simp

theorem fromPath_of_denotes {loc : PyStr} {parts : List PyStr} (h : Denotes loc parts) : fromPath loc = .ok () := by
  obtain ⟨segs, hne, hs, rfl, rfl⟩ := h
  unfold fromPath
  cases segs with
  | nil => exact absurd rfl hne
  | cons s ss => rw [if_pos (Or.inr (by simp))]

theorem isDir_of {d : Disk} {loc : PyStr} {parts : List PyStr} (h : Denotes loc parts) :
    isDir d loc = match d ⟨true, parts⟩ with
      | none => .error .runtimeError
      | some (.file _ _) => .ok false
      | some (.dir _) => .ok true := by
  unfold isDir
  rw [fromPath_of_denotes h, toPath_of_denotes h]
  rfl

theorem withExt_of {d : Disk} {loc : PyStr} {parts : List PyStr} (h : Denotes loc parts) (ext : PyStr) {node : Node}
    (hd : d ⟨true, parts⟩ = some node) : withExt d loc ext = .ok (glob ⟨true, parts⟩ ext node) := by
  unfold withExt
  rw [fromPath_of_denotes h, toPath_of_denotes h, hd]
  rfl

theorem withExts_of {d : Disk} {loc : PyStr} {parts : List PyStr} (h : Denotes loc parts) {node : Node}
    (hd : d ⟨true, parts⟩ = some node) (exts : List PyStr) :
    withExts d loc exts = .ok (exts.flatMap fun e => glob ⟨true, parts⟩ e node) := by
  induction exts with
  | nil => rfl
  | cons e es ih =>
    unfold withExts
    rw [withExt_of h e hd, ih]
    rfl

theorem listing_of (k : Kind) (parts names : List PyStr) (hn : names.Nodup) (exts : List PyStr)
    (he : exts.map ('.' :: ·) = endings k)
    (hx : exts.Pairwise fun a b => ¬ ('.' :: a) <:+ ('.' :: b) ∧ ¬ ('.' :: b) <:+ ('.' :: a)) :
    Listing k parts names (exts.flatMap fun e => glob ⟨true, parts⟩ e (.dir names)) := by
  have inj : ∀ a b : PyStr, (parts ++ [a]).flatMap ('/' :: ·) = (parts ++ [b]).flatMap ('/' :: ·) → a = b := by
    intro a b h
    simp only [List.flatMap_append, List.append_cancel_left_eq, List.flatMap_cons, List.flatMap_nil, List.append_nil,
      List.cons.injEq, true_and] at h
    exact h
  refine ⟨?_, fun f => ?_⟩
  · rw [List.nodup_flatMap]
    refine ⟨fun e _ => ?_, ?_⟩
    · unfold glob
      refine List.Nodup.map_on ?_ (hn.filter _)
      intro a _ b _ h
      exact inj a b h
    · refine hx.imp ?_
      rintro a b ⟨h1, h2⟩ f hfa hfb
      simp only [glob, List.mem_map, List.mem_filter, decide_eq_true_eq] at hfa hfb
      obtain ⟨m, ⟨_, hm⟩, rfl⟩ := hfa
      obtain ⟨m', ⟨_, hm'⟩, h⟩ := hfb
      obtain rfl := inj m' m h
      rcases List.suffix_or_suffix_of_suffix hm hm' with h | h
      · exact h1 h
      · exact h2 h
  · rw [← he]
    simp only [List.mem_flatMap, glob, List.mem_map, List.mem_filter, decide_eq_true_eq, showPath, if_true]
    constructor
    · rintro ⟨e, h1, n, ⟨h2, h3⟩, rfl⟩
      exact ⟨n, h2, ⟨_, ⟨e, h1, rfl⟩, h3⟩, rfl⟩
    · rintro ⟨n, h2, ⟨_, ⟨e, h1, rfl⟩, h3⟩, rfl⟩
      exact ⟨e, h1, n, ⟨h2, h3⟩, rfl⟩

theorem iterate_directory (k : Kind) (hk : k ≠ .croissant) (d : Disk) (loc : PyStr) (parts names : List PyStr)
    (h : Denotes loc parts) (hd : d ⟨true, parts⟩ = some (.dir names)) :
    iterateFiles k d loc = .ok (((endings k).map List.tail).flatMap fun e => glob ⟨true, parts⟩ e (.dir names)) := by
  cases k with
  | jsonl =>
    show iterateJsonl d loc = _
    unfold iterateJsonl
    rw [isDir_of h, hd, withExts_of h hd]
    rfl
  | web =>
    show iterateWeb d loc = _
    unfold iterateWeb
    rw [isDir_of h, hd, withExt_of h _ hd]
    simp [endings]
    rfl
  | parquet =>
    show iterateParquet d loc = _
    unfold iterateParquet
    rw [isDir_of h, hd, withExt_of h _ hd]
    simp [endings]
    rfl
  | croissant => exact absurd rfl hk

/-- **C71, directories**: for a directory, in whatever order the operating system lists its entries, exactly the entries
with one of the endings are found, each exactly once, and under its absolute path. (Entries of subdirectories are not, and
a subdirectory with such a name is taken for a file.) -/
theorem c71_directory (k : Kind) (hk : k ≠ .croissant) (d : Disk) (loc : PyStr) (parts names : List PyStr)
    (h : Denotes loc parts) (hd : d ⟨true, parts⟩ = some (.dir names)) (hn : names.Nodup) :
    ∃ files, iterateFiles k d loc = .ok files ∧ Listing k parts names files := by
  refine ⟨_, iterate_directory k hk d loc parts names h hd, listing_of k parts names hn _ ?_ ?_⟩
  · cases k <;> first | rfl | exact absurd rfl hk
  · cases k with
    | jsonl => decide +kernel
    | web => exact List.pairwise_singleton _ _
    | parquet => exact List.pairwise_singleton _ _
    | croissant => exact absurd rfl hk

/-- **C71, different spellings of a directory give the same files.** -/
theorem c71_spelling (k : Kind) (d : Disk) (loc loc' : PyStr) (parts names : List PyStr) (h : Denotes loc parts)
    (h' : Denotes loc' parts) (hd : d ⟨true, parts⟩ = some (.dir names)) :
    iterateFiles k d loc = iterateFiles k d loc' := by
  by_cases hk : k = .croissant
  · subst hk; rfl
  · rw [iterate_directory k hk d loc parts names h hd, iterate_directory k hk d loc' parts names h' hd]

/-- **C71, single files**: a location that is a file is the only file of the dataset, whatever its name; it is refused if
its contents are not valid JSON lines or not a Parquet file. A web dataset takes any file. -/
theorem c71_file (d : Disk) (loc : PyStr) (parts : List PyStr) (h : Denotes loc parts) (j p : Bool)
    (hd : d ⟨true, parts⟩ = some (.file j p)) :
    iterateFiles .jsonl d loc = (if j then .ok [loc] else .error .runtimeError) ∧
      iterateFiles .parquet d loc = (if p then .ok [loc] else .error .runtimeError) ∧
      iterateFiles .web d loc = .ok [loc] := by
  refine ⟨?_, ?_, ?_⟩
  · show iterateJsonl d loc = _
    unfold iterateJsonl validFile
    rw [isDir_of h, toPath_of_denotes h, hd, withExts_of h hd]
    cases j <;> rfl
  · show iterateParquet d loc = _
    unfold iterateParquet validFile
    rw [isDir_of h, toPath_of_denotes h, hd]
    cases p <;> rfl
  · show iterateWeb d loc = _
    unfold iterateWeb
    rw [isDir_of h, hd, withExt_of h _ hd]
    rfl

/-- **C71, nothing there**: a location that does not exist is refused by every dataset type. -/
theorem c71_missing (k : Kind) (d : Disk) (loc : PyStr) (parts : List PyStr) (h : Denotes loc parts)
    (hd : d ⟨true, parts⟩ = none) : ∃ e, iterateFiles k d loc = .error e := by
  cases k with
  | jsonl => refine ⟨.runtimeError, ?_⟩; show iterateJsonl d loc = _; unfold iterateJsonl; rw [isDir_of h, hd]; rfl
  | web => refine ⟨.runtimeError, ?_⟩; show iterateWeb d loc = _; unfold iterateWeb; rw [isDir_of h, hd]; rfl
  | parquet => refine ⟨.runtimeError, ?_⟩; show iterateParquet d loc = _; unfold iterateParquet; rw [isDir_of h, hd]; rfl
  | croissant => exact ⟨_, rfl⟩

/-- **C71, other locations**: relative paths and other schemes are refused. -/
theorem c71_relative (k : Kind) (d : Disk) (loc : PyStr) (h1 : ¬ "/".toList <+: loc) (h2 : ¬ "file://".toList <+: loc) :
    iterateFiles k d loc = .error .notImplemented := by
  have hf : fromPath loc = .error .notImplemented := by
    unfold fromPath
    exact if_neg (not_or.2 ⟨h2, h1⟩)
  have hi : isDir d loc = .error .notImplemented := by
    unfold isDir
    rw [hf]
    rfl
  cases k with
  | jsonl => show iterateJsonl d loc = _; unfold iterateJsonl; rw [hi]; rfl
  | web => show iterateWeb d loc = _; unfold iterateWeb; rw [hi]; rfl
  | parquet => show iterateParquet d loc = _; unfold iterateParquet; rw [hi]; rfl
  | croissant => rfl

/-- **C71, `file://` does not work**: such a location is documented as supported, and is accepted by `from_path`, but it is
then looked up as the relative path `file:/...`; unless the working directory happens to have a directory of the name
`file:`, it is refused although the file or directory exists. -/
theorem c71_scheme_partial (k : Kind) (d : Disk) (loc : PyStr) (parts : List PyStr) (h : Denotes loc parts)
    (hw : d ⟨false, "file:".toList :: parts⟩ = none) :
    ∃ e, iterateFiles k d ("file://".toList ++ loc) = .error e := by
  have ht : toPath ("file://".toList ++ loc) = ⟨false, "file:".toList :: parts⟩ := by
    obtain ⟨segs, hne, hs, rfl, rfl⟩ := h
    have e : "file://".toList ++ segs.flatMap ('/' :: ·) =
        "file:".toList ++ ([] :: [] :: segs).flatMap ('/' :: ·) := by
      simp
    unfold toPath
    rw [e, splitSlash_append "file:".toList (by decide) _ _ _
      (splitSlash_segs ([] :: [] :: segs) (by simpa using hs))]
    simp
  have hi : isDir d ("file://".toList ++ loc) = .error .runtimeError := by
    unfold isDir
    have : fromPath ("file://".toList ++ loc) = .ok () := by
      unfold fromPath
      exact if_pos (Or.inl (List.prefix_append scheme loc))
    rw [this, ht, hw]
    rfl
  cases k with
  | jsonl => refine ⟨.runtimeError, ?_⟩; show iterateJsonl d _ = _; unfold iterateJsonl; rw [hi]; rfl
  | web => refine ⟨.runtimeError, ?_⟩; show iterateWeb d _ = _; unfold iterateWeb; rw [hi]; rfl
  | parquet => refine ⟨.runtimeError, ?_⟩; show iterateParquet d _ = _; unfold iterateParquet; rw [hi]; rfl
  | croissant => exact ⟨_, rfl⟩

/-- **C71, registration**: registering a directory under a free name, with a known parser that accepts every matching file,
succeeds if there is a matching entry, and adds one file row for each of them - no more, none twice - with an id of its
own; in particular the lookup of the new ids by location (`id_map`) never mixes up two files. -/
theorem c71_registers (k : Kind) (hk : k ≠ .croissant) (d : Disk) (parts names : List PyStr) (a : RegArgs) (db : Db)
    (h : Denotes a.loc parts) (hd : d ⟨true, parts⟩ = some (.dir names)) (hn : names.Nodup) (hw : db.WF)
    (hv : a.validType = true) (hfree : a.name ∉ db.datasets.map DatasetRow.name)
    (hfiles : iterateFiles k d a.loc = .ok a.files) (hex : ∃ n ∈ names, ∃ e ∈ endings k, e <:+ n)
    (hparser : a.props ≠ none)
    (hparse : ∀ n ∈ names, (∃ e ∈ endings k, e <:+ n) →
      ∃ p, a.parse ((parts ++ [n]).flatMap ('/' :: ·)) = .ok p ∧ (p.map Prod.fst).Nodup) :
    ((registerDataset a).run db).2 = .ok true ∧
      ∃ fs, ((registerDataset a).run db).1.files = db.files ++ fs ∧
        Listing k parts names (fs.map FileRow.loc) ∧ (fs.map FileRow.id).Nodup ∧
        ∀ f ∈ fs, f.dataset = db.nextDataset ∧ ∀ g ∈ db.files, g.id ≠ f.id := by
  obtain ⟨files, h1, h2⟩ := c71_directory k hk d a.loc parts names h hd hn
  rw [hfiles] at h1
  injection h1 with h1
  subst h1
  have hr : Registrable a db := by
    refine ⟨hv, hfree, ?_, hparser, fun f hf => ?_⟩
    · obtain ⟨n, hn', he⟩ := hex
      have := (h2.2 _).2 ⟨n, hn', he, rfl⟩
      exact List.ne_nil_of_mem this
    · obtain ⟨n, hn', he, rfl⟩ := (h2.2 f).1 hf
      exact hparse n hn' he
  have hok := (c37_register_iff a db hw h2.1).2 hr
  refine ⟨hok, ?_⟩
  obtain ⟨_, _, props, fs, ps, _, h3, h4, h5, h6, _⟩ := c37_register_adds a db hw h2.1 hok
  exact ⟨fs, h3, by rw [h4]; exact h2, h6, h5⟩

/-! ### Concrete cases -/

/-- `/data` with five entries, one of them a directory. -/
def exampleDisk : Disk := fun p =>
  if p = ⟨true, ["data".toList]⟩ then
    some (.dir ["b.jsonl".toList, "a.jsonl.zst".toList, "notes.txt".toList, "old.jsonl".toList, "x.tar".toList])
  else if p = ⟨true, ["data".toList, "old.jsonl".toList]⟩ then some (.dir ["c.jsonl".toList])
  else if p = ⟨true, ["data".toList, "b.jsonl".toList]⟩ then some (.file true false)
  else none

theorem example_denotes : Denotes "/data".toList ["data".toList] :=
  ⟨["data".toList], by decide, by decide, by decide, by decide +kernel⟩

example : Denotes "//./data/".toList ["data".toList] :=
  ⟨["".toList, ".".toList, "data".toList, "".toList], by decide, by decide, by decide, by decide +kernel⟩

example : iterateFiles .jsonl exampleDisk "/data/".toList =
    .ok ["/data/b.jsonl".toList, "/data/old.jsonl".toList, "/data/a.jsonl.zst".toList] := by decide +kernel

example : iterateFiles .web exampleDisk "/data".toList = .ok ["/data/x.tar".toList] := by decide +kernel

example : iterateFiles .jsonl exampleDisk "/data/b.jsonl".toList = .ok ["/data/b.jsonl".toList] := by decide +kernel

example : iterateFiles .jsonl exampleDisk "file:///data".toList = .error .runtimeError := by decide +kernel

example : iterateFiles .jsonl exampleDisk "data".toList = .error .notImplemented := by decide +kernel

example : ∃ files, iterateFiles .jsonl exampleDisk "/data".toList = .ok files ∧
    Listing .jsonl ["data".toList]
      ["b.jsonl".toList, "a.jsonl.zst".toList, "notes.txt".toList, "old.jsonl".toList, "x.tar".toList] files :=
  c71_directory .jsonl (by decide) exampleDisk _ _ _ example_denotes rfl (by decide +kernel)

/-- A registration of the web dataset in `/data`. -/
def exampleReg : RegArgs where
  name := "d".toList
  loc := "/data".toList
  validType := true
  dtype := 3
  func := []
  files := ["/data/x.tar".toList]
  props := some [("class_label".toList, false)]
  parse := fun _ => .ok [(0, []), (1, [])]

example : ((registerDataset exampleReg).run {}).2 = .ok true :=
  (c71_registers .web (by decide) exampleDisk _ _ exampleReg {} example_denotes rfl (by decide +kernel)
    ⟨by simp, by simp, by simp, by simp, by simp, by simp, by simp, by simp⟩ rfl (by simp) (by decide +kernel)
    ⟨"x.tar".toList, by decide +kernel, ".tar".toList, by decide +kernel, by decide +kernel⟩ (by simp [exampleReg])
    fun _ _ _ => ⟨_, rfl, by decide⟩).1

end Mixtera.Files
