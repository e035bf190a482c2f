import Verif.Store.Open
import Verif.Server.Workspace
import Verif.Uri.Model

/-! Opening a folder, from the directory on the disk to the index: which files are found, under which URIs they are
indexed and what is read for them. -/

namespace Verif.Whole

open Verif.Encoding Verif.Storage Verif.Store

mutual

/-- What the disk has at a path: a directory, or anything else with what reading it delivers (`none`: it cannot be read).
Directories that are reached by a link are not modelled: the walk does not follow links. -/
inductive Entry where
  | file (content : Option Bytes)
  | dir (kids : Kids)

/-- The entries of a directory in the order in which they are read. -/
inductive Kids where
  | nil
  | cons (name : Bytes) (entry : Entry) (rest : Kids)

end

/-- The entry of a directory with this name. -/
def Kids.get : Kids → Bytes → Option Entry
  | .nil, _ => none
  | .cons n e rest, name => if n = name then some e else rest.get name

/-- What is reached from an entry through these names. -/
def Entry.at_ : Entry → List Bytes → Option Entry
  | e, [] => some e
  | .dir kids, n :: ns => (kids.get n).bind fun e => e.at_ ns
  | .file _, _ :: _ => none

/-- What the disk has at an absolute path; `disk` is the root directory. -/
def look (disk : Entry) (path : Bytes) : Option Entry := disk.at_ (splitB 47 (path.drop 1))

/-- `ioutil.ReadFile`. -/
def readFile (disk : Entry) (path : Bytes) : Option Bytes :=
  match look disk path with
  | some (.file c) => c
  | _ => none

mutual

/-- `filepath.WalkDir` with the function of `FileFS.ListFiles` (`internal/lsp/protocol/fs.go:87-106`) at a path: everything
that is no directory is listed, errors are only logged. A directory that cannot be read counts as one with the entries
that were read. -/
def listEntry (path : Bytes) : Entry → List Bytes
  | .file _ => [path]
  | .dir kids => listKids path kids

/-- The loop of `WalkDir`. Simplified: the path of an entry is that of the directory, a slash and the name
(`filepath.Join` also cleans the path, which changes nothing for the paths that `URIToPath` makes of an editor's URI of
a folder). -/
def listKids (path : Bytes) : Kids → List Bytes
  | .nil => []
  | .cons n e rest => listEntry (path ++ 47 :: n) e ++ listKids path rest

end

/-- `FileFS.ListFiles` (`fs.go:87-106`). If there is nothing at the path, `WalkDir` calls the function with `nil` for the
entry, and `info.IsDir()` (93) panics: `none`. -/
def listFiles (disk : Entry) (base : Bytes) : Option (List Bytes) := (look disk base).map (listEntry base)

/-- The files that `indexFolder` hands to the workers (`internal/lsp/workspaceStore.go:193-205`). -/
def jobs (paths : List Bytes) : List Bytes := (paths.filter fun p => (b!".php").isSuffixOf p).map Uri.pathToURI

/-- What a worker does with it (`workspaceStore.go:53-73`): the URI under which the file is indexed, if it belongs to the
folder `root` (see `WS.getStore`). -/
def routed (w : Server.WS) (root uri : Bytes) : Option Bytes :=
  (Uri.decodeURIFromQuery uri).filter fun u => w.getStore u = some root

/-- The documents that are compared with the index: `GetOrCreateDocument` reads the file with `FileFS.ReadFile`
(`fs.go:78-84`); what cannot be read is left out (`analysis/store.go:396-399`). `load` is `NewDocument` with `Load`. -/
def documents (disk : Entry) (load : Bytes → Bytes → Doc) (uris : List Bytes) : List Doc :=
  uris.filterMap fun u => ((Uri.uriToPath u).bind (readFile disk)).map (load u)

/-- `addView` for the folder `uri` of the disk (`workspaceStore.go:99-142`), with the folders in `w`: as `openFolder`, with
the files from the disk. -/
def openFromDisk (env : Env) (older : Bytes → Option Bool) (version : Bytes) (stubs : List Doc) (w : Server.WS)
    (disk : Entry) (load : Bytes → Bytes → Doc) (uri : Bytes) (s : Store) : Option Store :=
  (Uri.uriToPath uri).bind fun base => (listFiles disk base).bind fun paths =>
    openFolder env older version stubs (documents disk load ((jobs paths).filterMap (routed w uri))) s

end Verif.Whole
