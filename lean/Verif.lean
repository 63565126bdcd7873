import Verif.Base
import Verif.Varint.Props
import Verif.Oid.Props
import Verif.Delta.Props
import Verif.Strtol.Props
import Verif.Sort.Props
import Verif.HashMap.Props
import Verif.Tree.Props
import Verif.Index.Props
import Verif.IndexFile.Props
import Verif.RefPacked.Props
import Verif.FileBuf.Props
import Verif.RefDb.Examples
import Verif.RefName.Props
import Verif.Wildmatch.Props
import Verif.Refspec.Props
import Verif.PQueue.Props
import Verif.Vec.Props
import Verif.Base64.Props
import Verif.Utf8.Props
import Verif.Pack.Props
import Verif.Loose.Props
import Verif.Pkt.Props
import Verif.Message.Props
import Verif.Quote.Props
import Verif.Crlf.Props
import Verif.PathValid.Props
import Verif.Checkout.Props
import Verif.PackIdx.Props
import Verif.Sig.Props
import Verif.Commit.Props
import Verif.Tag.Props
import Verif.Cache.Props
import Verif.ConfigVal.Props
import Verif.ConfigFile.Props
import Verif.ConfigLevels.Props
import Verif.Graph.Props
import Verif.Revwalk.Props
import Verif.Reflog.Props
import Verif.Shorten.Props
import Verif.Patch.Props
import Verif.Merge.Props
import Verif.Ignore.Props
import Verif.Attr.Props
import Verif.Xdiff.Props
import Verif.TreeDiff.Props
import Verif.IndexTree.Props
import Verif.CommitGraph.Props
import Verif.Midx.Props
import Verif.Notes.Props
import Verif.Odb.Examples
import Verif.PackObjects.Examples
import Verif.MergeFile.Props
import Verif.Indexer.Props
import Verif.Racy.Props
import Verif.Mwindow.Props
import Verif.Mailmap.Props
import Verif.FetchHead.Props
import Verif.Grafts.Props
import Verif.IndexExt.Props
import Verif.Hashsig.Props
import Verif.RefTx.Props
import Verif.NetHost.Props
import Verif.NetUrl.Props
import Verif.NetUrl.PropsAuth
import Verif.NetUrl.PropsFmt
import Verif.NetUrl.PropsJoin
