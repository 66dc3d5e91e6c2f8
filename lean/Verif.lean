import Verif.Base
import Verif.Coding.Model
import Verif.Coding.Lemmas
import Verif.Coding.Codec
import Verif.Message.Model
import Verif.Message.Lemmas
import Verif.Props.Coding
import Verif.Props.Message
import Verif.Props.Grammar
import Verif.Session.Reader
import Verif.Props.Reader
import Verif.Session.Handshake
import Verif.Props.Handshake
import Verif.Slots
import Verif.Model.Frame
import Verif.Model.FrameSpec
import Verif.Model.FrameLemmas
import Verif.Model.Group
import Verif.Model.GroupSpec
import Verif.Model.GroupLemmas
import Verif.Model.Track
import Verif.Model.TrackSpec
import Verif.Model.TrackLemmas
import Verif.Props.Frame
import Verif.Props.Group
import Verif.Props.Track
import Verif.Model.Broadcast
import Verif.Model.BroadcastSpec
import Verif.Model.BroadcastLemmas
import Verif.Model.BroadcastServe
import Verif.Props.Broadcast
import Verif.Model.Origin
import Verif.Model.OriginSpec
import Verif.Model.OriginLemmas
import Verif.Model.OriginForward
import Verif.Model.OriginWake
import Verif.Props.Origin
import Verif.Session.Announce
import Verif.Session.AnnounceSpec
import Verif.Session.AnnounceLemmas
import Verif.Session.Remote
import Verif.Props.Announce
import Verif.Session.Transfer
import Verif.Session.TransferSpec
import Verif.Session.TransferLemmas
import Verif.Session.TransferRecv
import Verif.Props.Transfer
import Verif.Session.Subs
import Verif.Session.SubsSpec
import Verif.Session.SubsLemmas
import Verif.Props.Subs
import Verif.Session.ServeLoop
import Verif.Session.ServeLoopSpec
import Verif.Session.ServeLoopLemmas
import Verif.Props.ServeLoop
import Verif.Session.Requests
import Verif.Session.RequestsSpec
import Verif.Session.RequestsLemmas
import Verif.Props.Requests
import Verif.Relay.Token
import Verif.Relay.Auth
import Verif.Relay.TokenLemmas
import Verif.Relay.Connection
import Verif.Relay.ConnectionSpec
import Verif.Relay.ConnectionLemmas
import Verif.Relay.Cluster
import Verif.Props.Token
import Verif.Props.Auth
import Verif.Props.Relay
import Verif.Hang.Text
import Verif.Hang.Codec
import Verif.Hang.CodecSpec
import Verif.Hang.CodecLemmas
import Verif.Props.Codec
import Verif.Hang.Media
import Verif.Hang.MediaSpec
import Verif.Hang.MediaLemmas
import Verif.Props.Media
import Verif.Hang.Catalog
import Verif.Hang.CatalogSpec
import Verif.Hang.CatalogLemmas
import Verif.Props.Catalog
import Verif.Hang.Import
import Verif.Hang.ImportSpec
import Verif.Hang.ImportLemmas
import Verif.Props.Import
import Verif.Relay.Web
import Verif.Relay.WebSpec
import Verif.Relay.WebLemmas
import Verif.Relay.WebBody
import Verif.Relay.WebBodySpec
import Verif.Relay.WebBodyLemmas
import Verif.Props.WebBody
import Verif.Props.Web
import Verif.Native.Tls
import Verif.Native.TlsLemmas
import Verif.Session.TransferServe
import Verif.Props.Native
import Verif.Hang.Latest
import Verif.Hang.LatestSpec
import Verif.Hang.LatestLemmas
import Verif.Props.Latest
import Verif.Hang.Room
import Verif.Hang.RoomSpec
import Verif.Props.Room
import Verif.Session.Lifecycle
import Verif.Session.LifecycleSpec
import Verif.Props.Lifecycle
import Verif.Relay.Main
import Verif.Relay.MainSpec
import Verif.Props.Main
import Verif.Session.Tree
import Verif.Session.TreeSpec
import Verif.Session.TreeLemmas
import Verif.Session.TreeEnd
import Verif.Props.Tree
import Verif.Js.Text
import Verif.Js.TextLemmas
import Verif.Js.Wire
import Verif.Js.WireLemmas
import Verif.Js.StreamLemmas
import Verif.Props.JsWire
import Verif.Js.Accept
import Verif.Props.JsAccept
import Verif.Js.Group
import Verif.Js.GroupLemmas
import Verif.Props.JsGroup
import Verif.Js.Track
import Verif.Js.TrackLemmas
import Verif.Props.JsTrack
import Verif.Js.Announced
import Verif.Js.AnnouncedLemmas
import Verif.Props.JsAnnounced
import Verif.Js.Publisher
import Verif.Js.PublisherLemmas
import Verif.Props.JsPublisher
import Verif.Js.Unused
import Verif.Js.UnusedLemmas
import Verif.Props.JsUnused
import Verif.Js.Subscriber
import Verif.Js.SubscriberLemmas
import Verif.Js.SubscriberCount
import Verif.Props.JsSubscriber
import Verif.Js.Container
import Verif.Js.ContainerLemmas
import Verif.Js.Frames
import Verif.Js.FramesLemmas
import Verif.Props.JsFrames
import Verif.Js.Reconnect
import Verif.Js.ReconnectLemmas
import Verif.Props.JsReconnect
import Verif.Js.Playback
import Verif.Js.PlaybackLemmas
import Verif.Props.JsPlayback
import Verif.Js.Schedule
import Verif.Js.ScheduleLemmas
import Verif.Props.JsSchedule
import Verif.Js.Serve
import Verif.Js.ServeLemmas
import Verif.Props.JsServe
import Verif.Js.Receive
import Verif.Js.ReceiveLemmas
import Verif.Props.JsReceive
import Verif.Props.JsEndToEnd
import Verif.Js.Capture
import Verif.Js.CaptureLemmas
import Verif.Js.CaptureView
import Verif.Js.CaptureMore
import Verif.Props.JsCapture
import Verif.Js.CaptureEnds
import Verif.Js.AudioCapture
import Verif.Js.AudioCaptureLemmas
import Verif.Js.AudioCaptureEnds
import Verif.Props.JsAudioCapture
import Verif.Js.Media
import Verif.Js.MediaLemmas
import Verif.Props.JsMedia
import Verif.Js.CatalogTrack
import Verif.Js.CatalogTrackLemmas
import Verif.Props.JsCatalogTrack
import Verif.Js.Watching
import Verif.Js.WatchingLemmas
import Verif.Props.JsWatching
import Verif.Json
import Verif.JsonLemmas
import Verif.Hang.CatalogJson
import Verif.Js.Catalog
import Verif.Js.CatalogLemmas
import Verif.Props.CatalogJson
import Verif.Js.Emitter
import Verif.Js.EmitterLemmas
import Verif.Props.JsEmitter
import Verif.Js.Chat
import Verif.Js.ChatLemmas
import Verif.Props.JsChat
import Verif.Js.Download
import Verif.Props.JsDownload
import Verif.Js.Renderer
import Verif.Props.JsRenderer
import Verif.Js.Location
import Verif.Props.JsLocation
import Verif.Js.Locating
import Verif.Props.JsLocating
import Verif.Wasm.Render
import Verif.Props.WasmRender
import Verif.Wasm.Watch
import Verif.Props.WasmWatch
import Verif.Wasm.Publish
import Verif.Props.WasmPublish
import Verif.Wasm.Pool
import Verif.Props.WasmPool
import Verif.Clock
import Verif.Props.Clock
import Verif.Hang.Init
import Verif.Props.ImportInit
import Verif.Gst.Source
import Verif.Props.GstSource
import Verif.Gst.Sink
import Verif.Props.GstSink
import Verif.Hang.Cli
import Verif.Props.Cli
import Verif.Js.Publishing
import Verif.Props.JsPublishing
import Verif.Js.WatchChat
import Verif.Props.JsWatchChat
import Verif.Js.ChatCatalog
import Verif.Props.JsChatCatalog
import Verif.Relay.TokenCli
import Verif.Props.TokenCli
